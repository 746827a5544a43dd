import Verif.Proofs.RoundInl
import Verif.Proofs.Fence
import Verif.Proofs.Top
/-! # Round trip: what the written lines are identified as -/
namespace Jotdown.Round
open Jotdown Jotdown.Notation

/-! ## Only fence characters open fences -/

/-- Only lines starting with a fence character are identified as fences. -/
theorem identMatch_fenced {indent : Nat} {line lineT chars : Bytes} {first : UInt8} {r : Block.Kind × Span}
    (h : Block.identMatch indent line lineT first chars = .ok (some r)) {i l : Nat} {k : Block.FenceKind} {sp : Bytes} {cl : Bool} {nr : Option (UInt8 × Nat)}
    (hr : r.1 = .fenced i l k sp cl nr) : (first = c! '`' ∨ first = c! ':' ∨ first = c! '~') ∧ Block.identFence indent first line lineT chars = .ok (some r) := by
  obtain ⟨k', s⟩ := r
  simp only at hr
  subst hr
  unfold Block.identMatch at h
  repeat' split at h
  all_goals first
    | (simp at h; done)
    | (simp [Block.identBullet] at h; done)
    | skip
  · obtain ⟨v, -, h⟩ := bind_ok h
    simp only [pure, Except.pure] at h
    split at h <;> simp at h
  · unfold Block.identDefinition at h
    split at h
    · simp at h
    · obtain ⟨v, -, h⟩ := bind_ok h
      split at h
      · obtain ⟨w, -, h⟩ := bind_ok h
        obtain ⟨x, -, h⟩ := bind_ok h
        simp [pure, Except.pure] at h
      · simp [pure, Except.pure] at h
  · simp only [Block.identBullet, Except.ok.injEq] at h
    repeat' split at h
    all_goals simp at h
  · rename_i hf
    exact ⟨hf, h⟩
  · obtain ⟨v, -, h⟩ := bind_ok h
    simp only [pure, Except.pure, Except.ok.injEq] at h
    cases v <;> simp at h

/-- What a fence consists of. -/
theorem identFence_parts {indent : Nat} {line lineT chars : Bytes} {first : UInt8} {r : Block.Kind × Span}
    (h : Block.identFence indent first line lineT chars = .ok (some r)) :
    3 ≤ 1 + Lex.countWhile (· == first) chars
    ∧ (first ≠ c! ':' → (trimStart (lineT.drop (1 + Lex.countWhile (· == first) chars))).any (· == c! '`') = false)
    ∧ r.1 = .fenced indent (1 + Lex.countWhile (· == first) chars) (if first = c! ':' then .div else .codeBlock first)
        (trimStart (lineT.drop (1 + Lex.countWhile (· == first) chars))) false none := by
  unfold Block.identFence at h
  obtain ⟨v, hv, h⟩ := bind_ok h
  have hv' : v = lineT.drop (1 + Lex.countWhile (· == first) chars) := by
    unfold strSlice at hv
    split at hv
    · cases hv; exact List.take_of_length_le (by simp)
    · cases hv
  rw [hv'] at h
  simp only at h
  generalize hvs : (if first = c! ':' then (trimStart (lineT.drop (1 + Lex.countWhile (· == first) chars))).all Attr.isName
    else !(trimStart (lineT.drop (1 + Lex.countWhile (· == first) chars))).any isWs && !(trimStart (lineT.drop (1 + Lex.countWhile (· == first) chars))).any (· == c! '`')) = vs at h
  split at h
  · rename_i hc
    simp only [pure, Except.pure, Except.ok.injEq, Option.some.injEq] at h
    subst h
    simp only [Bool.and_eq_true, decide_eq_true_eq] at hc
    refine ⟨hc.2, ?_, rfl⟩
    intro hne
    rw [if_neg hne, hc.1] at hvs
    simp only [Bool.and_eq_true, Bool.not_eq_true'] at hvs
    exact hvs.2
  · simp [pure, Except.pure] at h

/-- The line is not identified as a fence. -/
def NotFence (l : Bytes) : Prop := ∀ r, Block.identify l = .ok r → ∀ i n k sp cl nr, r.1 ≠ .fenced i n k sp cl nr

theorem isInnerWs_of {c : UInt8} (h : isWs c = false) : Block.isInnerWs c = false := by simp [Block.isInnerWs, h]

/-- Identification of a line that does not start with whitespace. -/
theorem identify_cons {c : UInt8} {cs : Bytes} (hc : isWs c = false ∨ c = c! '\n') : Block.identify (c :: cs) = (do
    let r ← Block.identMatch 0 (c :: cs) (trimEnd (c :: cs)) c cs
    pure (r.getD (.paragraph, ⟨0, 0⟩))) := by
  have hi : Block.isInnerWs c = false := by
    rcases hc with h | h
    · exact isInnerWs_of h
    · subst h; decide
  rw [Block.identify_eq, List.dropWhile_cons_of_neg (by simp [hi])]
  simp

theorem notFence_of {c : UInt8} {cs : Bytes} (hc : isWs c = false ∨ c = c! '\n')
    (h : (c = c! '`' ∨ c = c! ':' ∨ c = c! '~') → ∀ r, Block.identFence 0 c (c :: cs) (trimEnd (c :: cs)) cs ≠ .ok (some r)) : NotFence (c :: cs) := by
  intro r hr i n k sp cl nr hk
  rw [identify_cons hc] at hr
  obtain ⟨o, ho, hr⟩ := bind_ok hr
  cases hr
  cases o with
  | none => simp at hk
  | some r =>
    obtain ⟨h1, h2⟩ := identMatch_fenced ho hk
    exact h h1 r h2

theorem countWhile_zero {p : UInt8 → Bool} {s : Bytes} (h : ∀ c, s.head? = some c → p c = false) : Lex.countWhile p s = 0 := by
  cases s with
  | nil => rfl
  | cons c s => simp [Lex.countWhile, List.takeWhile_cons, h c rfl]

/-! ## Lines of paragraphs -/

theorem trimEnd_keep (A : Bytes) {c : UInt8} (hc : isWs c = false) (Y : Bytes) : ∃ Z, trimEnd (A ++ c :: Y) = A ++ c :: Z := by
  have : ∀ W : Bytes, ∃ Z', (W ++ c :: A.reverse).dropWhile isWs = Z' ++ c :: A.reverse := by
    intro W
    induction W with
    | nil => exact ⟨[], by simp [hc]⟩
    | cons w W ih =>
      simp only [List.cons_append, List.dropWhile_cons]
      split
      · exact ih
      · exact ⟨w :: W, rfl⟩
  obtain ⟨Z', hz⟩ := this Y.reverse
  refine ⟨Z'.reverse, ?_⟩
  unfold trimEnd
  have e : (A ++ c :: Y).reverse = Y.reverse ++ c :: A.reverse := by simp
  rw [e, hz]; simp

theorem mem_trimStart {s : Bytes} {c : UInt8} (hc : isWs c = false) (h : c ∈ s) : c ∈ trimStart s := by
  unfold trimStart
  induction s with
  | nil => cases h
  | cons d s ih =>
    rw [List.dropWhile_cons]
    split
    · rename_i hd
      rcases List.mem_cons.1 h with rfl | h
      · rw [hc] at hd; cases hd
      · exact ih h
    · exact h

/-- Verbatim text at the start of a line. -/
theorem notFence_code {n : Nat} {c : UInt8} {s' Y : Bytes} (hn : 0 < n) (hct : c ≠ c! '`') : NotFence (ticks n ++ (c :: s') ++ ticks n ++ Y) := by
  obtain ⟨m, rfl⟩ : ∃ m, n = m + 1 := ⟨n - 1, by omega⟩
  have e : ticks (m + 1) ++ (c :: s') ++ ticks (m + 1) ++ Y = c! '`' :: (ticks m ++ (c :: s') ++ ticks (m + 1) ++ Y) := by
    simp [ticks, List.replicate_succ]
  rw [e]
  refine notFence_of (.inl (by decide)) ?_
  intro _ r hr
  obtain ⟨h1, h2, -⟩ := identFence_parts hr
  have hcw : Lex.countWhile (· == c! '`') (ticks m ++ (c :: s') ++ ticks (m + 1) ++ Y) = m := by
    have : (ticks m ++ (c :: s') ++ ticks (m + 1) ++ Y) = List.replicate m (c! '`') ++ (c :: (s' ++ ticks (m + 1) ++ Y)) := by simp [ticks]
    rw [this]
    unfold Lex.countWhile
    rw [Block.takeWhile_replicate_append (by simpa using hct)]
    simp
  rw [hcw] at h1 h2
  have h2 := h2 (by decide)
  rw [← e] at h2
  have e2 : ticks (m + 1) ++ (c :: s') ++ ticks (m + 1) ++ Y = (ticks (m + 1) ++ (c :: s')) ++ c! '`' :: (ticks m ++ Y) := by
    simp [ticks, List.replicate_succ]
  obtain ⟨Z, hz⟩ := trimEnd_keep (ticks (m + 1) ++ (c :: s')) (c := c! '`') (by decide) (ticks m ++ Y)
  rw [e2, hz, Nat.add_comm 1 m] at h2
  have e3 : (ticks (m + 1) ++ (c :: s') ++ c! '`' :: Z).drop (m + 1) = (c :: s') ++ c! '`' :: Z := by
    rw [List.append_assoc, List.drop_append_of_le_length (by simp [ticks])]
    simp [ticks]
  rw [e3] at h2
  have hm : c! '`' ∈ trimStart ((c :: s') ++ c! '`' :: Z) := mem_trimStart (by decide) (by simp)
  rw [List.any_eq_false] at h2
  exact h2 _ hm (by decide)

theorem plain_facts : ∀ b : UInt8, isPlain b = true →
    b ≠ c! '`' ∧ b ≠ c! ':' ∧ b ≠ c! '~' ∧ b ≠ c! '{' ∧ b ≠ c! '|' ∧ b ≠ c! '[' ∧ b ≠ c! '-' ∧ b ≠ c! '*' ∧ b ≠ c! '+' ∧ b ≠ c! '(' ∧ b ≠ c! ')' ∧ b ≠ c! '.' ∧ b ≠ c! '\n' := by
  intro b hb
  refine ⟨?_, ?_, ?_, ?_, ?_, ?_, ?_, ?_, ?_, ?_, ?_, ?_, ?_⟩ <;> (rintro rfl; exact absurd hb (by decide))

/-- The first line of pieces. -/
theorem splitF_cons {T : List F} (hT : T ≠ []) : ∃ t U, T = t ++ U ∧ t ≠ [] ∧ splitF T = t :: splitF U ∧
    (∀ {x S}, okF x S T → U = [] ∨ ∃ S', okF .bol S' U) ∧ (∀ f, t = [f] → f.isNl = false → U = []) := by
  induction T with
  | nil => exact absurd rfl hT
  | cons f T ih =>
    by_cases hf : f.isNl = true
    · cases f with
      | nl hard => exact ⟨[.nl hard], T, rfl, by simp, by simp [splitF, F.isNl], fun h => .inr (by cases hard <;> first | exact ⟨_, h.2⟩ | exact ⟨_, h.2.2⟩), by simp [F.isNl]⟩
      | _ => cases hf
    · have hf : f.isNl = false := by simpa using hf
      by_cases hT' : T = []
      · subst hT'
        exact ⟨[f], [], rfl, by simp, by simp [splitF, hf], fun _ => .inl rfl, fun _ _ _ => rfl⟩
      · obtain ⟨t, U, h1, h2, h3, h4, h5⟩ := ih hT'
        refine ⟨f :: t, U, by rw [h1]; rfl, by simp, ?_, ?_, fun g hg _ => by simp at hg; exact absurd hg.2 h2⟩
        · simp [splitF, hf, h3]
        · intro x S h
          obtain ⟨x', S', h', _⟩ := okF_tail h
          exact h4 h'

/-- The byte after an opening delimiter without braces. -/
theorem opened_head {x : Ctx} {S : List Op} {m : Mark} {g : F} {T : List F} (h : okF x S (.opn (.mark m false) :: g :: T)) :
    ∃ d d', g.print = d :: d' ∧ isWs d = false ∧ d ≠ m.ch ∧ ((∀ em, g ≠ .dash em) → d ≠ c! '-') := by
  obtain ⟨hx, ⟨hm, hS, _, ⟨c, hc, hw⟩, _⟩, ho⟩ := h
  have ho : okF .opened (.mark m false :: S) (g :: T) := ho
  have hne := F.print_ne ho
  cases hp : g.print with
  | nil => exact absurd hp hne
  | cons d d' =>
    rw [fprint_cons, hp] at hc
    simp at hc
    subst hc
    refine ⟨d, d', rfl, hw, ?_⟩
    have hmc : ∀ e : UInt8, e ∉ [c! '_', c! '*', c! '^', c! '~', c! '\'', c! '"', c! '-'] → e ≠ m.ch ∧ ((∀ em, g ≠ .dash em) → e ≠ c! '-') := by
      intro e he
      simp only [List.mem_cons, List.not_mem_nil, or_false, not_or] at he
      refine ⟨?_, fun _ => he.2.2.2.2.2.2⟩
      cases m <;> first | exact he.1 | exact he.2.1 | exact he.2.2.1 | exact he.2.2.2.1 | exact he.2.2.2.2.1 | exact he.2.2.2.2.2.1 | cases hm
    cases g with
    | ch b =>
      cases hp
      have hb : isPlain d = true := ho.2.1
      refine hmc d ?_
      simp only [List.mem_cons, List.not_mem_nil, or_false]
      rintro (rfl | rfl | rfl | rfl | rfl | rfl | rfl) <;> exact absurd hb (by decide)
    | bsl => cases hp; exact hmc _ (by decide)
    | lit c => have := ho.1; cases this
    | nbsp => have := ho.1; cases this
    | rest v n a u t => have := ho.1; cases this
    | opn o =>
      cases o with
      | link b u => cases b <;> (cases hp; exact hmc _ (by decide))
      | mark m' b =>
        cases b with
        | true => cases hp; exact hmc _ (by decide)
        | false =>
          cases hp
          obtain ⟨_, ⟨hm', hS', _⟩, _⟩ := ho
          have hmm : m' ≠ m := by rintro rfl; exact hS' (by simp)
          clear hmc hS hS' hne hw ho
          refine ⟨?_, ?_⟩
          · cases m' <;> first | (exact absurd hm' (by decide)) | (cases m <;> first | (exact absurd hm (by decide)) | exact absurd rfl hmm | decide)
          · intro _; cases m' <;> first | (exact absurd hm' (by decide)) | decide
    | cls o =>
      obtain ⟨_, hc, S', hS', _⟩ := ho
      simp only [List.cons.injEq] at hS'
      obtain ⟨rfl, -⟩ := hS'
      exact absurd hc.2 (by simp [Ctx.tight])
    | code v n s =>
      obtain ⟨k, rfl⟩ : ∃ k, n = k + 1 := ⟨n - 1, by have := ho.2.1.1.1; omega⟩
      simp [F.print, ticks, List.replicate_succ] at hp
      rw [← hp.1]; exact hmc _ (by decide)
    | nl hard => cases hp; exact absurd hw (by decide)
    | dots => cases hp; exact hmc _ (by decide)
    | dash em =>
      have : d = c! '-' := by cases em <;> (cases hp; rfl)
      subst this
      exact ⟨(by cases m <;> first | decide | exact absurd hm (by decide)), fun h => absurd rfl (h em)⟩
    | right dd =>
      have hr := ho.2.1 false
      cases dd <;> cases hp
      · exact ⟨(by cases m <;> first | decide | (exact absurd hm (by decide)) | (exact absurd List.mem_cons_self hr)), fun _ => by decide⟩
      · exact ⟨(by cases m <;> first | decide | (exact absurd hm (by decide)) | (exact absurd List.mem_cons_self hr)), fun _ => by decide⟩
    | apos => exact absurd ho.1 (by simp)
    | dols dd => rcases ho.2.1 with hh | hh <;> cases hh
    | note s => cases hp; exact hmc _ (by decide)
    | sym s => cases hp; exact hmc _ (by decide)
    | auto s => cases hp; exact hmc _ (by decide)

theorem notFence_head {x : Ctx} {S : List Op} {f : F} {T t : List F} (h : okF x S (f :: T)) (hx : x.free = true) (hx2 : x = .bol) (ht : ∃ U, T = t ++ U ∧ (f.isNl = false → t = [] → U = [])) (hw : f.isNl = false → ∀ c, f.print.head? = some c → isWs c = false) :
    NotFence (fprint (f :: t)) := by
  rw [fprint_cons]
  cases f with
  | ch b =>
    have hp := plain_facts b h.2.1
    refine notFence_of (.inl (hw rfl b rfl)) ?_
    rintro (hf | hf | hf)
    · exact absurd hf hp.1
    · exact absurd hf hp.2.1
    · exact absurd hf hp.2.2.1
  | bsl => exact notFence_of (.inl (by decide)) (by rintro (hf | hf | hf) <;> exact absurd hf (by decide))
  | lit c => rw [h.1] at hx; cases hx
  | nbsp => rw [h.1] at hx; cases hx
  | dots => exact notFence_of (.inl (by decide)) (by rintro (hf | hf | hf) <;> exact absurd hf (by decide))
  | dash em => cases em <;> exact notFence_of (.inl (by decide)) (by rintro (hf | hf | hf) <;> exact absurd hf (by decide))
  | right d => cases d <;> exact notFence_of (.inl (by decide)) (by rintro (hf | hf | hf) <;> exact absurd hf (by decide))
  | dols d => subst hx2; rcases h.2.1 with hh | hh <;> cases hh
  | apos => exact notFence_of (.inl (by decide)) (by rintro (hf | hf | hf) <;> exact absurd hf (by decide))
  | note s => exact notFence_of (.inl (by decide)) (by rintro (hf | hf | hf) <;> exact absurd hf (by decide))
  | auto u => exact notFence_of (.inl (by decide)) (by rintro (hf | hf | hf) <;> exact absurd hf (by decide))
  | sym s =>
    refine notFence_of (.inl (by decide)) ?_
    intro _ r hr
    obtain ⟨h1, -⟩ := identFence_parts hr
    obtain ⟨hne, hs⟩ := h.2.1
    rw [countWhile_zero] at h1
    · omega
    · intro c hc
      cases s with
      | nil => exact absurd rfl hne
      | cons d s =>
        simp at hc
        subst hc
        have := hs d (by simp)
        cases hd : d == c! ':' with
        | false => rfl
        | true =>
          rw [beq_iff_eq] at hd
          subst hd
          exact absurd this (by decide)
  | opn o =>
    cases o with
    | link b u => cases b <;> exact notFence_of (.inl (by decide)) (by rintro (hf | hf | hf) <;> exact absurd hf (by decide))
    | mark m b =>
      cases b with
      | true => exact notFence_of (.inl (by cases m <;> decide)) (by rintro (hf | hf | hf) <;> exact absurd hf (by cases m <;> decide))
      | false =>
        obtain ⟨U, rfl, htn⟩ := ht
        cases t with
        | nil =>
          rw [htn rfl rfl] at h
          obtain ⟨_, ⟨_, _, _, ⟨c, hc, _⟩, _⟩, _⟩ := h
          simp at hc
        | cons g t =>
          obtain ⟨d, d', hd, hd2, hd3, -⟩ := opened_head h
          refine notFence_of (.inl (hw rfl _ rfl)) ?_
          intro _ r hr
          obtain ⟨h1, -⟩ := identFence_parts hr
          rw [countWhile_zero] at h1
          · omega
          · intro c hc
            simp only [fprint_cons, hd, List.append_eq, List.nil_append, List.cons_append, List.head?_cons, Option.some.injEq] at hc
            subst hc
            simpa using hd3
  | cls o =>
    cases o with
    | link b u => exact notFence_of (.inl (by decide)) (by rintro (hf | hf | hf) <;> exact absurd hf (by decide))
    | mark m b =>
      cases b with
      | false =>
        have := h.2.1.2
        rw [hx2] at this
        cases this
      | true =>
        refine notFence_of (.inl (by cases m <;> decide)) ?_
        intro _ r hr
        obtain ⟨h1, -⟩ := identFence_parts hr
        have : Lex.countWhile (· == m.ch) ([c! '}'] ++ fprint t) = 0 := by
          refine countWhile_zero ?_
          intro c hc
          simp at hc; subst hc
          cases m <;> decide
        simp only [List.append_eq] at h1
        rw [this] at h1
        omega
  | code v n s =>
    obtain ⟨hn, _, hs, _⟩ := h.2.1.1
    obtain ⟨c, y, e1, e2⟩ := apart_head hs (keepApart s.getLast?)
    have : (F.code v n s).print ++ fprint t = ticks n ++ (c :: y) ++ ticks n ++ (v.behind ++ fprint t) := by
      simp only [F.print]
      rw [e1]
      simp
    rw [this]
    exact notFence_code hn e2
  | rest v n a u t => rw [h.1] at hx; cases hx
  | nl hard => exact notFence_of (.inr rfl) (by rintro (hf | hf | hf) <;> exact absurd hf (by decide))

/-- No line of a paragraph is a fence. -/
theorem notFence_lines {x : Ctx} {S : List Op} {T : List F} (h : okF x S T) (hx : x = .bol)
    (hw : ∀ t ∈ splitF T, ∀ c, (fprint t).head? = some c → isWs c = false ∨ c = c! '\n') : ∀ t ∈ splitF T, NotFence (fprint t) := by
  generalize hn : T.length = n
  induction n using Nat.strongRecOn generalizing T x S with
  | ind n ih =>
    by_cases hT : T = []
    · subst hT; simp [splitF]
    · obtain ⟨t, U, h1, h2, h3, h4, h5⟩ := splitF_cons hT
      intro t' ht'
      rw [h3] at ht' hw
      rcases List.mem_cons.1 ht' with rfl | ht'
      · cases t' with
        | nil => exact absurd rfl h2
        | cons f t =>
          rw [h1] at h
          have hx1 : x.free = true := by rw [hx]; rfl
          refine notFence_head h hx1 hx ⟨U, rfl, fun hf ht => h5 f (by rw [ht]) hf⟩ ?_
          intro hf c hc
          have hne := F.print_ne h
          have := hw (f :: t) (by simp) c (by rw [fprint_cons]; cases hp : f.print with
            | nil => exact absurd hp hne
            | cons d r => rw [hp] at hc; simpa using hc)
          rcases this with hw | hw
          · exact hw
          · exfalso
            subst hw
            cases f with
            | rest v n a u t => rw [h.1] at hx1; cases hx1
            | nl => cases hf
            | _ =>
              refine F.nonl h hf (by simp) ?_
              exact List.mem_of_mem_head? hc
      · rcases h4 h with hU | ⟨S', hU⟩
        · subst hU; simp [splitF] at ht'
        · refine ih U.length ?_ hU rfl (fun t ht => hw t (List.mem_cons_of_mem _ ht)) rfl t' ht'
          rw [← hn, h1]
          have : 0 < t.length := by cases t with
            | nil => exact absurd rfl h2
            | cons _ _ => simp
          simp; omega

/-! ## First lines of paragraphs -/

/-- After letters and digits at the start of content, there is no parenthesis, and no period that is the only one. -/
theorem after_alnum {x : Ctx} {S : List Op} {T : List F} (h : okF x S T) (hx : x.free = true) (i : Nat)
    (hi : ∀ j, j < i → ∃ c, (fprint T)[j]? = some c ∧ isAlnum c = true) : ((fprint T)[i]? = some (c! '.') → (fprint T)[i + 1]? = some (c! '.')) ∧ (fprint T)[i]? ≠ some (c! ')') := by
  induction T generalizing x S i with
  | nil => simp
  | cons f T ih =>
    have key : ∀ c r, f.print = c :: r → isAlnum c = false → (c = c! '.' → r.head? = some (c! '.')) → c ≠ c! ')' →
        ((fprint (f :: T))[i]? = some (c! '.') → (fprint (f :: T))[i + 1]? = some (c! '.')) ∧ (fprint (f :: T))[i]? ≠ some (c! ')') := by
      intro c r hp ha h1 h2
      cases i with
      | zero =>
        refine ⟨?_, by simp [hp, h2]⟩
        intro hc
        simp [hp] at hc
        have h3 := h1 hc
        cases r with
        | nil => cases h3
        | cons d r => simp at h3; simp [hp, h3]
      | succ i =>
        obtain ⟨d, hd, hd2⟩ := hi 0 (by omega)
        simp [hp] at hd
        subst hd
        rw [ha] at hd2; cases hd2
    cases f with
    | ch b =>
      cases i with
      | zero =>
        have hp := plain_facts b h.2.1
        simp [F.print, hp]
      | succ i =>
        simp only [fprint_cons, F.print, List.singleton_append, List.getElem?_cons_succ]
        refine ih h.2.2.2 (chCtx_free b) i ?_
        intro j hj
        obtain ⟨c, hc, hc2⟩ := hi (j + 1) (by omega)
        simp only [fprint_cons, F.print, List.singleton_append, List.getElem?_cons_succ] at hc
        exact ⟨c, hc, hc2⟩
    | bsl => exact key _ _ rfl (by decide) (by decide) (by decide)
    | lit c => rw [h.1] at hx; cases hx
    | nbsp => rw [h.1] at hx; cases hx
    | opn o =>
      cases o with
      | link b u => cases b <;> exact key _ _ rfl (by decide) (by decide) (by decide)
      | mark m b => cases b <;> cases m <;> exact key _ _ rfl (by decide) (by decide) (by decide)
    | cls o =>
      cases o with
      | link b u => exact key (c! ']') _ rfl (by decide) (fun h => absurd h (by decide)) (by decide)
      | mark m b => cases b <;> cases m <;> exact key _ _ rfl (by decide) (by decide) (by decide)
    | code v n s =>
      obtain ⟨m, rfl⟩ : ∃ m, n = m + 1 := ⟨n - 1, by have := h.2.1.1.1; omega⟩
      exact key (c! '`') _ (by simp [F.print, ticks, List.replicate_succ]; rfl) (by decide) (fun h => absurd h (by decide)) (by decide)
    | rest v n a u t => rw [h.1] at hx; cases hx
    | nl hard => exact key _ _ rfl (by decide) (by decide) (by decide)
    | dots => exact key _ _ rfl (by decide) (by decide) (by decide)
    | dash em => cases em <;> exact key _ _ rfl (by decide) (by decide) (by decide)
    | right d => cases d <;> exact key _ _ rfl (by decide) (by decide) (by decide)
    | apos => exact key _ _ rfl (by decide) (by decide) (by decide)
    | dols d => cases d <;> exact key _ _ rfl (by decide) (by decide) (by decide)
    | note s => exact key (c! '[') _ rfl (by decide) (fun h => absurd h (by decide)) (by decide)
    | sym s => exact key (c! ':') _ rfl (by decide) (fun h => absurd h (by decide)) (by decide)
    | auto s => exact key (c! '<') _ rfl (by decide) (fun h => absurd h (by decide)) (by decide)

theorem numDigit_alnum (k : Numbering) (c : UInt8) (h : Block.isNumDigit k c = true) : isAlnum c = true := by
  have hr : ∀ c, Block.isRomanLowerDigit c = true → isAlnum c = true := by
    intro c h
    simp only [Block.isRomanLowerDigit, Bool.or_eq_true, beq_iff_eq] at h
    rcases h with (((((h | h) | h) | h) | h) | h) | h <;> subst h <;> decide
  have hu : ∀ c, Block.isRomanUpperDigit c = true → isAlnum c = true := by
    intro c h
    simp only [Block.isRomanUpperDigit, Bool.or_eq_true, beq_iff_eq] at h
    rcases h with (((((h | h) | h) | h) | h) | h) | h <;> subst h <;> decide
  cases k with
  | decimal => simp only [Block.isNumDigit] at h; simp [isAlnum, h]
  | alphaLower => simp only [Block.isNumDigit] at h; simp [isAlnum, h]
  | alphaUpper => simp only [Block.isNumDigit] at h; simp [isAlnum, h]
  | romanLower => exact hr c h
  | romanUpper => exact hu c h

theorem numberingOf_alnum {c : UInt8} {k : Numbering} (h : Block.numberingOf c = some k) : isAlnum c = true := by
  unfold Block.numberingOf at h
  split at h
  · exact numDigit_alnum .decimal c (by assumption)
  · split at h
    · exact numDigit_alnum .romanLower c (by assumption)
    · split at h
      · exact numDigit_alnum .romanUpper c (by assumption)
      · split at h
        · exact numDigit_alnum .alphaLower c (by assumption)
        · split at h
          · exact numDigit_alnum .alphaUpper c (by assumption)
          · cases h

/-- Not a number of a list item. -/
theorem not_ordered {c : UInt8} {cs : Bytes} (hp : c ≠ c! '(')
    (h : ∀ i : Nat, (∀ j : Nat, j < i → ∃ d, (c :: cs)[j]? = some d ∧ isAlnum d = true) → ((c :: cs)[i]? = some (c! '.') → (c :: cs)[i + 1]? = some (c! '.')) ∧ (c :: cs)[i]? ≠ some (c! ')')) :
    Block.maybeOrderedListItem (c :: cs) = .ok none := by
  unfold Block.maybeOrderedListItem
  simp only [hp, if_false]
  split
  · rfl
  · rename_i k hk
    unfold Block.orderedRest
    simp only
    split
    · rfl
    · rename_i post after hd
      have hget : (c :: cs)[1 + Lex.countWhile (Block.isNumDigit k) (cs.take (Block.maxLen k - 1))]? = some post := by
        rw [Nat.add_comm, List.getElem?_cons_succ]
        have := congrArg List.head? hd
        simp only [List.head?_drop, List.head?_cons] at this
        rw [← this]; congr 1; omega
      have := h (1 + Lex.countWhile (Block.isNumDigit k) (cs.take (Block.maxLen k - 1))) ?_
      · rw [hget] at this
        simp only [ne_eq, Option.some.injEq] at this
        by_cases hp : post = c! '.'
        · have h2 := this.1 hp
          rw [List.getElem?_cons_succ] at h2
          have hafter : after.head? = some (c! '.') := by
            have := congrArg (·[1]?) hd
            simp only [List.getElem?_drop, List.getElem?_cons_succ] at this
            rw [List.head?_eq_getElem?, ← this, ← h2]; congr 1; omega
          have : Block.noneOrWs after = false := by
            cases after with
            | nil => cases hafter
            | cons a after => simp at hafter; subst hafter; rfl
          simp only [this, Bool.false_eq_true, if_false]
          split <;> rfl
        · simp [Block.styleOf, hp, this.2]
      · intro j hj
        cases j with
        | zero => exact ⟨c, rfl, numberingOf_alnum hk⟩
        | succ j =>
          have hlt : j < Lex.countWhile (Block.isNumDigit k) (cs.take (Block.maxLen k - 1)) := by omega
          obtain ⟨x, hx, hp⟩ := Block.countWhile_lt_get hlt
          refine ⟨x, ?_, numDigit_alnum k x hp⟩
          rw [List.getElem?_cons_succ]
          rw [List.getElem?_take] at hx
          split at hx
          · exact hx
          · cases hx

/-- A line identified as the start of a paragraph. -/
theorem para_head {c : UInt8} {cs : Bytes} (hw : isWs c = false) (h1 : c ∉ [c! '#', c! '>', c! '{', c! '|', c! '[', c! '-', c! '*', c! '+', c! ':', c! '~', c! '('])
    (h2 : c = c! '`' → NotFence (c :: cs))
    (h : ∀ i : Nat, (∀ j : Nat, j < i → ∃ d, (c :: cs)[j]? = some d ∧ isAlnum d = true) → ((c :: cs)[i]? = some (c! '.') → (c :: cs)[i + 1]? = some (c! '.')) ∧ (c :: cs)[i]? ≠ some (c! ')'))
    {r : Block.Kind × Span} (hr : Block.identify (c :: cs) = .ok r) : r = (.paragraph, ⟨0, 0⟩) := by
  have hn : c ≠ c! '\n' := by rintro rfl; exact absurd hw (by decide)
  simp only [List.mem_cons, List.not_mem_nil, or_false, not_or] at h1
  obtain ⟨a1, a2, a3, a4, a5, a6, a7, a8, a9, a10, a11⟩ := h1
  have hr' := hr
  rw [identify_cons (.inl hw)] at hr
  obtain ⟨o, ho, hr⟩ := bind_ok hr
  cases hr
  by_cases hc : c = c! '`'
  · subst hc
    have hm := ho
    unfold Block.identMatch at hm
    simp only [hn, a1, a2, a3, a4, a5, a6, a7, a8, a9, a10, if_false, false_and, or_false, false_or, if_true, true_or] at hm
    cases o with
    | none => rfl
    | some r =>
      obtain ⟨-, -, h3⟩ := identFence_parts hm
      exact absurd h3 (h2 rfl _ hr' _ _ _ _ _ _)
  · unfold Block.identMatch at ho
    simp only [hn, a1, a2, a3, a4, a5, a6, a7, a8, a9, a10, hc, if_false, false_and, or_false, false_or] at ho
    rw [not_ordered a11 h] at ho
    cases ho
    rfl

/-- Nothing is identified. -/
theorem ident_none {c : UInt8} {cs : Bytes} (hw : isWs c = false) (h : ∀ o, Block.identMatch 0 (c :: cs) (trimEnd (c :: cs)) c cs = .ok o → o = none)
    {r : Block.Kind × Span} (hr : Block.identify (c :: cs) = .ok r) : r = (.paragraph, ⟨0, 0⟩) := by
  rw [identify_cons (.inl hw)] at hr
  obtain ⟨o, ho, hr⟩ := bind_ok hr
  cases hr
  rw [h o ho]
  rfl

theorem ident_brace {d : UInt8} {cs : Bytes} (hd : d ∈ [c! '*', c! '=', c! '+', c! '^', c! '~', c! '\'', c! '"']) {r : Block.Kind × Span} (hr : Block.identify (c! '{' :: d :: cs) = .ok r) :
    r = (.paragraph, ⟨0, 0⟩) := by
  refine ident_none (by decide) ?_ hr
  intro o ho
  unfold Block.identMatch at ho
  rw [if_neg (by decide), if_neg (by decide), if_neg (by decide), if_pos rfl] at ho
  have hv : Attr.valid (c! '{' :: d :: cs) = .ok 0 := by
    simp only [List.mem_cons, List.not_mem_nil, or_false] at hd
    rcases hd with rfl | rfl | rfl | rfl | rfl | rfl | rfl <;> rfl
  rw [hv] at ho
  obtain ⟨Z, hz⟩ := trimEnd_keep [] (c := c! '{') (by decide) (d :: cs)
  simp only [List.nil_append] at hz
  rw [hz] at ho
  simp only [bind, Except.bind, pure, Except.pure, List.length_cons, Except.ok.injEq] at ho
  rw [if_neg (by omega)] at ho
  exact ho.symm

theorem ident_bracket {cs : Bytes} (h : ∀ k, Block.findByte (c! ']') cs = some k → cs[k + 1]? ≠ some (c! ':')) {r : Block.Kind × Span} (hr : Block.identify (c! '[' :: cs) = .ok r) :
    r = (.paragraph, ⟨0, 0⟩) := by
  refine ident_none (by decide) ?_ hr
  intro o ho
  unfold Block.identMatch at ho
  rw [if_neg (by decide), if_neg (by decide), if_neg (by decide), if_neg (by decide), if_neg (by decide), if_pos rfl] at ho
  unfold Block.identDefinition at ho
  split at ho
  · cases ho; rfl
  · rename_i k hk
    obtain ⟨v, hv, ho⟩ := bind_ok ho
    have hv' : v.head? = cs[k + 1]? := by
      unfold strSlice at hv
      split at hv
      · cases hv
        rw [List.take_of_length_le (by simp), List.head?_drop]
      · cases hv
    rw [if_neg (by rw [hv']; exact h k hk)] at ho
    cases ho; rfl

theorem ident_star {d : UInt8} {cs : Bytes} (hw : isWs d = false) (h1 : d ≠ c! '*') (h2 : d ≠ c! '-') {r : Block.Kind × Span} (hr : Block.identify (c! '*' :: d :: cs) = .ok r) :
    r = (.paragraph, ⟨0, 0⟩) := by
  refine ident_none (by decide) ?_ hr
  intro o ho
  unfold Block.identMatch at ho
  have hb : Block.isThematicBreak (d :: cs) = false := by simp [Block.isThematicBreak, Block.thematicLoop, h1, h2, hw]
  rw [if_neg (by decide), if_neg (by decide), if_neg (by decide), if_neg (by decide), if_neg (by decide), if_neg (by decide), if_neg (by rw [hb]; simp), if_pos (by simp)] at ho
  have hsp : (d == c! ' ') = false := by
    cases hd : d == c! ' ' with
    | false => rfl
    | true => rw [beq_iff_eq] at hd; subst hd; exact absurd hw (by decide)
  simp only [Block.identBullet, hsp, Bool.false_eq_true, if_false, Except.ok.injEq] at ho
  exact ho.symm

theorem ident_fence {c d : UInt8} {cs : Bytes} (hc : c = c! ':' ∨ c = c! '~') (hw : isWs d = false) (h1 : d ≠ c) {r : Block.Kind × Span} (hr : Block.identify (c :: d :: cs) = .ok r) :
    r = (.paragraph, ⟨0, 0⟩) := by
  refine ident_none (by rcases hc with rfl | rfl <;> decide) ?_ hr
  intro o ho
  cases o with
  | none => rfl
  | some r =>
    exfalso
    have hf : Block.identFence 0 c (c :: d :: cs) (trimEnd (c :: d :: cs)) (d :: cs) = .ok (some r) := by
      have hn : Block.noneOrWs (d :: cs) = false := hw
      unfold Block.identMatch at ho
      rcases hc with rfl | rfl
      · rw [if_neg (by decide), if_neg (by decide), if_neg (by decide), if_neg (by decide), if_neg (by decide), if_neg (by decide), if_neg (fun h => absurd h.1 (by decide)), if_neg (by decide), if_neg (by rw [hn]; simp), if_pos (by simp)] at ho
        exact ho
      · rw [if_neg (by decide), if_neg (by decide), if_neg (by decide), if_neg (by decide), if_neg (by decide), if_neg (by decide), if_neg (fun h => absurd h.1 (by decide)), if_neg (by decide), if_neg (fun h => absurd h.1 (by decide)), if_pos (by simp)] at ho
        exact ho
    obtain ⟨h3, -⟩ := identFence_parts hf
    rw [countWhile_zero (by intro e he; simp at he; subst he; simpa using h1)] at h3
    omega

/-- The start of a list item: neither a thematic break nor the box of a task. -/
structure FirstOk (l : Bytes) : Prop where
  brk : ∀ n, Block.thematicLoop n l = false
  task : Block.isTask l = false

theorem begins_of {c : UInt8} {cs : Bytes} (hw : isWs c = false) (h1 : c ≠ c! '-') (h2 : c ≠ c! '*') (h3 : c ≠ c! '[') : FirstOk (c :: cs) := by
  refine ⟨fun n => by simp [Block.thematicLoop, h1, h2, hw], ?_⟩
  unfold Block.isTask
  split
  · rename_i heq
    simp only [List.cons.injEq] at heq
    rw [← heq.1]
    simp [h3]
  · rfl

theorem first_line {s l : Bytes} {ls : List Bytes} (h : splitNl (s ++ [c! '\n']) = l :: ls) : l.getLast? = some (c! '\n') ∧ ∃ z, s ++ [c! '\n'] = l ++ z := by
  induction s generalizing l ls with
  | nil => simp [splitNl] at h; rw [← h.1]; exact ⟨rfl, [], rfl⟩
  | cons c s ih =>
    simp only [List.cons_append, splitNl] at h
    split at h
    · rename_i hc
      cases h
      exact ⟨by rw [hc]; rfl, s ++ [c! '\n'], rfl⟩
    · cases hs : splitNl (s ++ [c! '\n']) with
      | nil =>
        obtain ⟨_, _, e, -⟩ := splitNl_append (a := []) (by simp) (s ++ [c! '\n']) (by simp)
        rw [hs] at e; cases e
      | cons l' ls' =>
        obtain ⟨h1, z, h2⟩ := ih hs
        rw [hs] at h
        cases h
        refine ⟨?_, z, by rw [List.cons_append, h2]; rfl⟩
        cases l' with
        | nil => cases h1
        | cons a l' => rw [List.getLast?_cons_cons]; exact h1

theorem noDef_get {s : Bytes} (h : noDef s = true) : ∀ i : Nat, s[i]? = some (c! ']') → s[i + 1]? ≠ some (c! ':') := by
  intro i
  induction s generalizing i with
  | nil => simp
  | cons c s ih =>
    cases s with
    | nil => simp
    | cons d s =>
      simp only [noDef, Bool.and_eq_true, Bool.not_eq_true', Bool.and_eq_false_iff, beq_eq_false_iff_ne] at h
      cases i with
      | zero =>
        intro h1 h2
        simp at h1 h2
        rcases h.1 with h3 | h3
        · exact h3 h1
        · exact h3 h2
      | succ i =>
        simp only [List.getElem?_cons_succ]
        exact ih h.2 i

theorem findByte_spec {c : UInt8} {s : Bytes} {k : Nat} (h : Block.findByte c s = some k) : s[k]? = some c ∧ ∀ j, j < k → s[j]? ≠ some c := by
  induction s generalizing k with
  | nil => cases h
  | cons d s ih =>
    unfold Block.findByte at h
    split at h
    · rename_i hd
      cases h
      exact ⟨by simp [hd], fun j hj => by omega⟩
    · rename_i hd
      cases hf : Block.findByte c s with
      | none => rw [hf] at h; cases h
      | some k' =>
        rw [hf] at h
        cases h
        obtain ⟨h1, h2⟩ := ih hf
        refine ⟨by simpa using h1, ?_⟩
        intro j hj
        cases j with
        | zero => simpa using hd
        | succ j => simpa using h2 j (by simp only at hj; omega)

/-- The pieces of a paragraph. -/
theorem para_pieces {is : List Inl} (h : ParaOk is) : okF .bol [] (flats is ++ [.nl false]) ∧ fprint (flats is ++ [.nl false]) = prints is ++ [c! '\n'] := by
  obtain ⟨h1, h2, h3, -, c, hc, hw⟩ := h
  refine ⟨?_, by rw [fprint_append, flats_print]; rfl⟩
  have := flats_ok is [] h1 h2 .bol rfl ?_ [] (by simp) [.nl false] ?_
  · simpa using this
  · cases is with
    | nil => trivial
    | cons j js =>
      cases j with
      | elem m b _ => cases m <;> cases b <;> rfl
      | apos => cases h3
      | code v n s => cases v <;> first | rfl | cases h3
      | _ => rfl
  · intro y hy hlast
    refine ⟨hy, ?_, rfl, rfl⟩
    cases hl : is.getLast? with
    | none =>
      rw [List.getLast?_eq_none_iff] at hl
      subst hl
      cases h3
    | some i =>
      have := prints_tight h1 hl hc hw
      rw [← hlast i hl] at this
      rintro rfl
      cases this

theorem splitNl_newline {s : Bytes} (hs : s ≠ []) (hl : s.getLast? ≠ some (c! '\n')) :
    ∃ A z, splitNl s = A ++ [z] ∧ splitNl (s ++ [c! '\n']) = A ++ [z ++ [c! '\n']] := by
  induction s with
  | nil => exact absurd rfl hs
  | cons c s ih =>
    by_cases hs' : s = []
    · subst hs'
      have hc : ¬ c = c! '\n' := by simpa using hl
      refine ⟨[], [c], ?_, ?_⟩
      · simp only [splitNl, hc, if_false]; rfl
      · simp only [List.cons_append, List.nil_append, splitNl, hc, if_false, if_true]
    · obtain ⟨A, z, h1, h2⟩ := ih hs' (by
        cases s with
        | nil => exact absurd rfl hs'
        | cons d s => simpa [List.getLast?_cons_cons] using hl)
      by_cases hc : c = c! '\n'
      · exact ⟨[c] :: A, z, by simp [splitNl, hc, h1], by simp [splitNl, hc, h2]⟩
      · cases A with
        | nil =>
          simp only [List.nil_append] at h1 h2
          exact ⟨[], c :: z, by simp [splitNl, hc, h1], by simp [splitNl, hc, h2]⟩
        | cons a A =>
          refine ⟨(c :: a) :: A, z, by simp [splitNl, hc, h1], by simp [splitNl, hc, h2]⟩

/-- The lines of a paragraph: those of its content, with a newline at the end of the last one. -/
theorem para_lines {is : List Inl} (h : ParaOk is) : ∃ A z, splitNl (prints is) = A ++ [z] ∧ splitNl (prints is ++ [c! '\n']) = A ++ [z ++ [c! '\n']] := by
  obtain ⟨_, _, _, _, c, hc, hc2⟩ := h
  refine splitNl_newline ?_ ?_
  · intro he; rw [he] at hc; simp at hc
  · rw [hc]
    rintro he
    cases he
    exact absurd hc2 (by decide)

theorem para_heads {is : List Inl} (h : ParaOk is) : ∀ l ∈ splitNl (prints is ++ [c! '\n']), ∃ c, l.head? = some c ∧ isWs c = false := by
  obtain ⟨A, z, h1, h2⟩ := para_lines h
  intro l hl
  rw [h2] at hl
  rcases List.mem_append.1 hl with hl | hl
  · exact h.2.2.2.1 l (by rw [h1]; simp [hl])
  · simp at hl
    subst hl
    obtain ⟨c, hc, hw⟩ := h.2.2.2.1 z (by rw [h1]; simp)
    exact ⟨c, by rw [List.head?_append, hc]; rfl, hw⟩

theorem title_lines {is : List Inl} (h : TitleOk is) : ∃ A z, splitNl (prints is) = A ++ [z] ∧ splitNl (prints is ++ [c! '\n']) = A ++ [z ++ [c! '\n']] := by
  obtain ⟨_, _, _, _, c, hc, hc2⟩ := h
  refine splitNl_newline ?_ ?_
  · intro he; rw [he] at hc; simp at hc
  · rw [hc]
    rintro he
    cases he
    exact absurd hc2 (by decide)

theorem title_heads {is : List Inl} (h : TitleOk is) : ∀ l ∈ splitNl (prints is ++ [c! '\n']), ∃ c, l.head? = some c ∧ isWs c = false := by
  obtain ⟨A, z, h1, h2⟩ := title_lines h
  intro l hl
  rw [h2] at hl
  rcases List.mem_append.1 hl with hl | hl
  · exact h.2.2.2.1 l (by rw [h1]; simp [hl])
  · simp at hl
    subst hl
    obtain ⟨c, hc, hw⟩ := h.2.2.2.1 z (by rw [h1]; simp)
    exact ⟨c, by rw [List.head?_append, hc]; rfl, hw⟩

/-- The content of a title as pieces. -/
theorem title_pieces {is : List Inl} (h : TitleOk is) : okF .bol [] (flats is ++ [.nl false]) ∧ fprint (flats is ++ [.nl false]) = prints is ++ [c! '\n'] := by
  obtain ⟨h1, h2, h3, -, c, hc, hw⟩ := h
  refine ⟨?_, by rw [fprint_append, flats_print]; rfl⟩
  have := flats_ok is [] h1 h2 .bol rfl ?_ [] (by simp) [.nl false] ?_
  · simpa using this
  · cases is with
    | nil => trivial
    | cons j js =>
      cases j with
      | elem m b _ => cases m <;> cases b <;> rfl
      | apos => cases h3
      | code v n s => cases v <;> first | rfl | cases h3
      | _ => rfl
  · intro y hy hlast
    refine ⟨hy, ?_, rfl, rfl⟩
    cases hl : is.getLast? with
    | none =>
      rw [List.getLast?_eq_none_iff] at hl
      subst hl
      cases hc
    | some i =>
      have := prints_tight h1 hl hc hw
      rw [← hlast i hl] at this
      rintro rfl
      cases this

theorem title_notFence {is : List Inl} (h : TitleOk is) : ∀ l ∈ splitNl (prints is ++ [c! '\n']), NotFence l := by
  have hh := title_heads h
  obtain ⟨ho, hfp⟩ := title_pieces h
  have hsp := splitNl_fprint ho (by
    intro v n a u t hm
    rcases List.mem_append.1 hm with hm | hm
    · exact flats_rest is v n a u t hm
    · simp at hm)
  rw [hfp] at hsp
  rw [hsp] at hh ⊢
  intro l hl
  obtain ⟨t, ht, rfl⟩ := List.mem_map.1 hl
  refine notFence_lines ho rfl ?_ t ht
  intro t ht c hc
  obtain ⟨d, hd, hd2⟩ := hh (fprint t) (List.mem_map.2 ⟨t, ht, rfl⟩)
  rw [hd] at hc
  cases hc
  exact .inl hd2

theorem para_notFence {is : List Inl} (h : ParaOk is) : ∀ l ∈ splitNl (prints is ++ [c! '\n']), NotFence l := by
  have hh := para_heads h
  obtain ⟨ho, hfp⟩ := para_pieces h
  have hsp := splitNl_fprint ho (by
    intro v n a u t hm
    rcases List.mem_append.1 hm with hm | hm
    · exact flats_rest is v n a u t hm
    · simp at hm)
  rw [hfp] at hsp
  rw [hsp] at hh ⊢
  intro l hl
  obtain ⟨t, ht, rfl⟩ := List.mem_map.1 hl
  refine notFence_lines ho rfl ?_ t ht
  intro t ht c hc
  obtain ⟨d, hd, hd2⟩ := hh (fprint t) (List.mem_map.2 ⟨t, ht, rfl⟩)
  rw [hd] at hc
  cases hc
  exact .inl hd2

/-- What pieces start with. -/
theorem piece_head {x : Ctx} {S : List Op} {g : F} {T : List F} (h : okF x S (g :: T)) (hx : x.free = true) :
    ∃ c r, g.print = c :: r ∧ ((g = .ch c ∧ isPlain c = true) ∨ (c = c! ']' ∧ r.head? = some (c! '(')) ∨
      c ∈ [c! '\\', c! '{', c! '_', c! '*', c! '^', c! '~', c! '=', c! '+', c! '-', c! '!', c! '[', c! '`', c! '\n', c! '.', c! ':', c! '<', c! '\'', c! '"', c! '$']) := by
  cases g with
  | ch b => exact ⟨b, [], rfl, .inl ⟨rfl, h.2.1⟩⟩
  | bsl => exact ⟨_, _, rfl, .inr (.inr (by decide))⟩
  | lit c => rw [h.1] at hx; cases hx
  | nbsp => rw [h.1] at hx; cases hx
  | rest v n a u t => rw [h.1] at hx; cases hx
  | opn o =>
    cases o with
    | link b u => cases b <;> exact ⟨_, _, rfl, .inr (.inr (by decide))⟩
    | mark m b => cases b <;> cases m <;> exact ⟨_, _, rfl, .inr (.inr (by decide))⟩
  | cls o =>
    cases o with
    | link b u => exact ⟨_, _, rfl, .inr (.inl ⟨rfl, rfl⟩)⟩
    | mark m b => cases b <;> cases m <;> exact ⟨_, _, rfl, .inr (.inr (by decide))⟩
  | code v n s =>
    obtain ⟨m, rfl⟩ : ∃ m, n = m + 1 := ⟨n - 1, by have := h.2.1.1.1; omega⟩
    exact ⟨c! '`', _, by simp only [F.print, ticks, List.replicate_succ, List.cons_append]; rfl, .inr (.inr (by decide))⟩
  | nl hard => exact ⟨_, _, rfl, .inr (.inr (by decide))⟩
  | dots => exact ⟨_, _, rfl, .inr (.inr (by decide))⟩
  | dash em => cases em <;> exact ⟨_, _, rfl, .inr (.inr (by decide))⟩
  | right d => cases d <;> exact ⟨_, _, rfl, .inr (.inr (by decide))⟩
  | apos => exact ⟨_, _, rfl, .inr (.inr (by decide))⟩
  | dols d => cases d <;> exact ⟨_, _, rfl, .inr (.inr (by decide))⟩
  | note s => exact ⟨_, _, rfl, .inr (.inr (by decide))⟩
  | sym s => exact ⟨_, _, rfl, .inr (.inr (by decide))⟩
  | auto s => exact ⟨_, _, rfl, .inr (.inr (by decide))⟩

theorem flat_dash {j : Inl} {B : List Mark} (h : j.Ok B) {X : List F} {em : Bool} (he : (j.flat ++ X).head? = some (.dash em)) : j = .dash em := by
  cases j with
  | text s =>
    simp only [Inl.Ok] at h
    cases s with
    | nil => exact absurd rfl h.1
    | cons b s => simp [Inl.flat] at he
  | dash em' => simp [Inl.flat] at he; rw [he]
  | code v n s => cases v <;> simp [Inl.flat] at he
  | _ => simp [Inl.flat] at he

/-- The first line of a paragraph. -/
theorem para_start {is : List Inl} (h : ParaOk is) {l : Bytes} {ls : List Bytes} (hl : splitNl (prints is ++ [c! '\n']) = l :: ls) :
    ∃ c cs, l = c :: cs ∧ isWs c = false ∧ FirstOk l ∧ ∀ r, Block.identify l = .ok r → r = (.paragraph, ⟨0, 0⟩) := by
  obtain ⟨ho, hfp⟩ := para_pieces h
  obtain ⟨hlast, z, hz⟩ := first_line hl
  obtain ⟨c, hc, hw⟩ := para_heads h l (by rw [hl]; simp)
  have hnf := para_notFence h l (by rw [hl]; simp)
  have lift : ∀ (j : Nat) d, l[j]? = some d → (prints is ++ [c! '\n'])[j]? = some d := by
    intro j d hj
    rw [hz, List.getElem?_append_left (List.getElem?_eq_some_iff.1 hj).1]
    exact hj
  have next : ∀ (j : Nat) d e, l[j]? = some d → d ≠ c! '\n' → (prints is ++ [c! '\n'])[j + 1]? = some e → l[j + 1]? = some e := by
    intro j d e hj hd he
    have h1 := (List.getElem?_eq_some_iff.1 hj).1
    have h2 : j + 1 < l.length := by
      refine Nat.lt_of_le_of_ne h1 ?_
      intro hn
      rw [List.getLast?_eq_getElem?, show l.length - 1 = j by omega, hj] at hlast
      cases hlast
      exact hd rfl
    rw [hz, List.getElem?_append_left h2] at he
    exact he
  have hal : ∀ i : Nat, (∀ j : Nat, j < i → ∃ d, l[j]? = some d ∧ isAlnum d = true) → (l[i]? = some (c! '.') → l[i + 1]? = some (c! '.')) ∧ l[i]? ≠ some (c! ')') := by
    intro i hi
    have := after_alnum ho rfl i (fun j hj => by
      obtain ⟨d, hd, hd2⟩ := hi j hj
      exact ⟨d, by rw [hfp]; exact lift j d hd, hd2⟩)
    rw [hfp] at this
    exact ⟨fun hx => next i _ _ hx (by decide) (this.1 (lift i _ hx)), fun hx => this.2 (lift i _ hx)⟩
  obtain ⟨cs, rfl⟩ : ∃ cs, l = c :: cs := by
    cases l with
    | nil => cases hc
    | cons d cs => simp at hc; subst hc; exact ⟨cs, rfl⟩
  have hcn : c ≠ c! '\n' := by rintro rfl; exact absurd hw (by decide)
  have second : ∀ e, (prints is ++ [c! '\n'])[1]? = some e → ∃ cs', cs = e :: cs' := by
    intro e he
    have := next 0 c e rfl hcn he
    cases cs with
    | nil => simp at this
    | cons a cs => simp at this; subst this; exact ⟨cs, rfl⟩
  have h0 := lift 0 c rfl
  refine ⟨c, cs, rfl, hw, ?_⟩
  obtain ⟨h1, h2, h3, h4, h5⟩ := h
  have other : c ∉ [c! '#', c! '>', c! '{', c! '|', c! '[', c! '-', c! '*', c! '+', c! ':', c! '~', c! '('] →
      FirstOk (c :: cs) ∧ ∀ r, Block.identify (c :: cs) = .ok r → r = (.paragraph, ⟨0, 0⟩) := by
    intro hm
    refine ⟨?_, fun r hr => para_head hw hm (fun _ => hnf) hal hr⟩
    simp only [List.mem_cons, List.not_mem_nil, or_false, not_or] at hm
    exact begins_of hw hm.2.2.2.2.2.1 hm.2.2.2.2.2.2.1 hm.2.2.2.2.1
  cases is with
  | nil => cases h3
  | cons i is =>
    have hi : i.Ok [] := by simp only [InlsOk] at h1; exact h1.1
    cases i with
    | text s =>
      cases s with
      | nil => cases h3
      | cons b s =>
        simp [prints, Inl.print] at h0
        subst h0
        simp only [opens, Bool.and_eq_true, bne_iff_ne, ne_eq] at h3
        simp only [Inl.Ok] at hi
        have hp := plain_facts b (hi.2 b (by simp))
        refine other ?_
        simp only [List.mem_cons, List.not_mem_nil, or_false, not_or]
        exact ⟨h3.1, h3.2, hp.2.2.2.1, hp.2.2.2.2.1, hp.2.2.2.2.2.1, hp.2.2.2.2.2.2.1, hp.2.2.2.2.2.2.2.1, hp.2.2.2.2.2.2.2.2.1, hp.2.1, hp.2.2.1, hp.2.2.2.2.2.2.2.2.2.1⟩
    | esc b => simp [prints, Inl.print] at h0; subst h0; exact other (by decide)
    | hard => simp [prints, Inl.print] at h0; subst h0; exact other (by decide)
    | nbsp => simp [prints, Inl.print] at h0; subst h0; exact other (by decide)
    | dots => simp [prints, Inl.print] at h0; subst h0; exact other (by decide)
    | auto u => simp [prints, Inl.print] at h0; subst h0; exact other (by decide)
    | code v n s =>
      simp only [Inl.Ok] at hi
      obtain ⟨m, rfl⟩ : ∃ m, n = m + 1 := ⟨n - 1, by have := hi.1.1; omega⟩
      have hb : v.before = [] := by cases v <;> first | rfl | cases h3
      simp [prints, Inl.print, ticks, List.replicate_succ, hb] at h0
      subst h0
      exact other (by decide)
    | right d => cases d <;> (simp [prints, Inl.print] at h0; subst h0; exact other (by decide))
    | apos => simp [opens] at h3
    | note s =>
      simp [prints, Inl.print] at h0
      subst h0
      simp only [opens, bne_iff_ne, ne_eq] at h3
      simp only [Inl.Ok] at hi
      obtain ⟨hlab, hbr⟩ := hi
      have hW : prints (.note s :: is) ++ [c! '\n'] = c! '[' :: c! '^' :: (s ++ c! ']' :: (prints is ++ [c! '\n'])) := by
        simp [prints, Inl.print]
      obtain ⟨cs', rfl⟩ := second (c! '^') (by rw [hW]; rfl)
      refine ⟨⟨fun n => by simp [Block.thematicLoop, isWs], ?_⟩, fun r hr => ident_bracket ?_ hr⟩
      · cases ht : Block.isTask (c! '[' :: c! '^' :: cs') with
        | false => rfl
        | true =>
          exfalso
          unfold Block.isTask at ht
          split at ht
          · rename_i a b c' rest heq
            simp only [List.cons.injEq] at heq
            obtain ⟨rfl, rfl, rfl⟩ := heq
            simp at ht
          · cases ht
      · intro k hk hcol
        obtain ⟨hk1, hk2⟩ := findByte_spec hk
        have g1 := lift (k + 1) _ (by simpa using hk1)
        have g2 := lift (k + 1 + 1) _ (by simpa using hcol)
        rw [hW] at g1 g2
        cases k with
        | zero => simp at g1
        | succ k =>
          simp only [List.getElem?_cons_succ] at g1 g2
          by_cases hlt : k < s.length
          · rw [List.getElem?_append_left hlt] at g1
            exact (hlab _ (List.mem_of_getElem? g1)).2.1 rfl
          · by_cases hkk : k = s.length
            · subst hkk
              rw [List.getElem?_append_right (by omega)] at g2
              simp only [Nat.add_sub_cancel_left, List.getElem?_cons_succ] at g2
              cases hpi : prints is with
              | nil => rw [hpi] at g2; simp at g2
              | cons a z => rw [hpi] at g2 h3; simp at g2 h3; exact h3 g2
            · have := hk2 (s.length + 1) (by omega)
              apply this
              have hlen := (List.getElem?_eq_some_iff.1 hk1).1
              have e : (prints (.note s :: is) ++ [c! '\n'])[s.length + 1 + 1]? = (c! '[' :: c! '^' :: cs')[s.length + 1 + 1]? := by
                rw [hz, List.getElem?_append_left (by simp only [List.length_cons] at hlen ⊢; omega)]
              rw [hW] at e
              simp only [List.getElem?_cons_succ] at e ⊢
              rw [← e, List.getElem?_append_right (by omega)]
              simp
    | soft => cases h3
    | dash em => cases h3
    | symbol s =>
      simp only [Inl.Ok] at hi
      cases s with
      | nil => exact absurd rfl hi.1
      | cons d s =>
        simp [prints, Inl.print] at h0
        subst h0
        obtain ⟨cs', rfl⟩ := second d (by simp [prints, Inl.print])
        have hd := hi.2 d (by simp)
        refine ⟨begins_of (by decide) (by decide) (by decide) (by decide), fun r hr => ident_fence (.inl rfl) ?_ ?_ hr⟩
        · cases hx : isWs d with
          | false => rfl
          | true =>
            simp only [isWs, Bool.or_eq_true, beq_iff_eq] at hx
            rcases hx with (((h | h) | h) | h) | h <;> (subst h; exact absurd hd (by decide))
        · rintro rfl; exact absurd hd (by decide)
    | elem m b body =>
      cases b with
      | true =>
        simp [prints, Inl.print] at h0
        subst h0
        obtain ⟨cs', rfl⟩ := second m.ch (by simp [prints, Inl.print])
        refine ⟨begins_of (by decide) (by decide) (by decide) (by decide), fun r hr => ident_brace ?_ hr⟩
        cases m <;> first | decide | (exact absurd h3 (by simp [opens]))
      | false =>
        simp [prints, Inl.print] at h0
        subst h0
        simp only [Inl.Ok] at hi
        obtain ⟨hb, -, ht, -, -, hbo⟩ := hi
        have ho' : okF .bol [] (.opn (.mark m false) :: (flats body ++ ([.cls (.mark m false)] ++ (flats is ++ [.nl false])))) := by
          simpa [flats, Inl.flat] using ho
        cases hX : flats body ++ ([F.cls (.mark m false)] ++ (flats is ++ [F.nl false])) with
        | nil => simp at hX
        | cons g T =>
          rw [hX] at ho'
          obtain ⟨d, d', hd, hd2, hd3, hd4⟩ := opened_head ho'
          have hW : prints (.elem m false body :: is) ++ [c! '\n'] = m.ch :: d :: (d' ++ fprint T) := by
            rw [← hfp]
            have : flats (.elem m false body :: is) ++ [F.nl false] = .opn (.mark m false) :: g :: T := by
              rw [← hX]; simp [flats, Inl.flat]
            rw [this, fprint_cons, fprint_cons, hd]
            rfl
          obtain ⟨cs', rfl⟩ := second d (by rw [hW]; rfl)
          cases m with
          | emphasis => exact other (by decide)
          | superscript => exact other (by decide)
          | single => exact other (by decide)
          | double => exact other (by decide)
          | subscript =>
            exact ⟨begins_of (by decide) (by decide) (by decide) (by decide), fun r hr => ident_fence (.inr rfl) hd2 hd3 hr⟩
          | strong =>
            have hnd : d ≠ c! '-' := by
              refine hd4 ?_
              rintro em rfl
              cases body with
              | nil => obtain ⟨⟨e, he, -⟩, -⟩ := ht; simp [prints] at he
              | cons j js =>
                simp only [InlsOk] at hbo
                simp only [flats, List.append_assoc] at hX
                have := flat_dash hbo.1 (em := em) (by rw [hX]; rfl)
                subst this
                simp [opens] at h3
            have hd3 : d ≠ c! '*' := hd3
            refine ⟨⟨fun n => ?_, ?_⟩, fun r hr => ident_star hd2 hd3 hnd hr⟩
            · simp [Block.thematicLoop, Mark.ch, hd3, hnd, hd2]
            · unfold Block.isTask
              split
              · rename_i heq
                simp only [List.cons.injEq] at heq
                rw [← heq.1]; rfl
              · rfl
          | _ => exact absurd hb (by decide)
    | link image body url =>
      cases image with
      | true => simp [prints, Inl.print] at h0; subst h0; exact other (by decide)
      | false =>
        simp [prints, Inl.print] at h0
        subst h0
        simp only [opens] at h3
        have hdef := noDef_get h3
        have hW : prints (.link false body url :: is) ++ [c! '\n'] = c! '[' :: (prints body ++ c! ']' :: c! '(' :: (url ++ c! ')' :: (prints is ++ [c! '\n']))) := by
          simp [prints, Inl.print]
        have lift' : ∀ (j : Nat) d, cs[j]? = some d → (prints body ++ c! ']' :: c! '(' :: (url ++ c! ')' :: (prints is ++ [c! '\n'])))[j]? = some d := by
          intro j d hj
          have := lift (j + 1) d (by simpa using hj)
          rw [hW] at this
          simpa using this
        refine ⟨⟨fun n => by simp [Block.thematicLoop, isWs], ?_⟩, fun r hr => ident_bracket ?_ hr⟩
        · cases ht : Block.isTask (c! '[' :: cs) with
          | false => rfl
          | true =>
            exfalso
            unfold Block.isTask at ht
            split at ht
            · rename_i a b c' rest heq
              simp only [List.cons.injEq] at heq
              obtain ⟨rfl, rfl⟩ := heq
              simp only [Bool.and_eq_true, Bool.or_eq_true, beq_iff_eq] at ht
              obtain ⟨⟨⟨-, hb⟩, rfl⟩, hrest⟩ := ht
              have ho' : okF .lopened [.link false url] (flats body ++ ([.cls (.link false url)] ++ (flats is ++ [.nl false]))) := by
                have : okF .bol [] (.opn (.link false url) :: (flats body ++ ([.cls (.link false url)] ++ (flats is ++ [.nl false])))) := by
                  simpa [flats, Inl.flat] using ho
                exact this.2.2
              have hF : fprint (flats body ++ ([.cls (.link false url)] ++ (flats is ++ [.nl false]))) = prints body ++ c! ']' :: c! '(' :: (url ++ c! ')' :: (prints is ++ [c! '\n'])) := by
                simp [flats_print, F.print, Op.closes]
              rw [← hF] at lift'
              cases hX : flats body ++ ([F.cls (.link false url)] ++ (flats is ++ [F.nl false])) with
              | nil => simp at hX
              | cons g T =>
                rw [hX] at ho' lift'
                obtain ⟨e, er, he, hcase⟩ := piece_head ho' rfl
                have e0 := lift' 0 b rfl
                rw [fprint_cons, he] at e0
                simp at e0
                subst e0
                have hg : g = .ch e := by
                  rcases hcase with h | h | h
                  · exact h.1
                  · obtain ⟨rfl, -⟩ := h
                    rcases hb with (hb | hb) | hb <;> exact absurd hb (by decide)
                  · rcases hb with (hb | hb) | hb <;> (subst hb; exact absurd h (by decide))
                subst hg
                have e1 := lift' 1 _ rfl
                rw [fprint_cons] at e1
                simp only [F.print, List.singleton_append, List.getElem?_cons_succ] at e1
                cases T with
                | nil => simp at e1
                | cons g2 T =>
                  have ho2 := ho'.2.2.2
                  obtain ⟨f, fr, hf, hcase2⟩ := piece_head ho2 (chCtx_free _)
                  rw [fprint_cons, hf] at e1
                  simp at e1
                  subst e1
                  rcases hcase2 with h | h | h
                  · exact absurd h.2 (by decide)
                  · have hW3 : (prints (.link false body url :: is) ++ [c! '\n'])[3]? = some (c! '(') := by
                      rw [hW, ← hF, hX, fprint_cons, fprint_cons, hf]
                      cases fr with
                      | nil => cases h.2
                      | cons a fr => have := h.2; simp at this; subst this; simp [F.print]
                    have h33 := next 2 (c! ']') _ rfl (by decide) hW3
                    cases rest with
                    | nil => simp at h33
                    | cons a rest =>
                      simp at h33
                      subst h33
                      cases hrest
                  · exact absurd h (by decide)
            · cases ht
        · intro k hk hcol
          obtain ⟨hk1, hk2⟩ := findByte_spec hk
          have g1 := lift' k _ hk1
          have g2 := lift' (k + 1) _ hcol
          by_cases hlt : k < (prints body).length
          · rw [List.getElem?_append_left hlt] at g1
            by_cases hlt2 : k + 1 < (prints body).length
            · rw [List.getElem?_append_left hlt2] at g2
              exact hdef k g1 g2
            · rw [List.getElem?_append_right (by omega), show k + 1 - (prints body).length = 0 by omega] at g2
              simp at g2
          · by_cases heq : k = (prints body).length
            · rw [List.getElem?_append_right (by omega), show k + 1 - (prints body).length = 1 by omega] at g2
              simp at g2
            · refine hk2 (prints body).length (by omega) ?_
              have hlen : (prints body).length < cs.length := by
                have := (List.getElem?_eq_some_iff.1 hk1).1
                omega
              have := lift' (prints body).length cs[(prints body).length] (List.getElem?_eq_getElem hlen)
              rw [List.getElem?_append_right (Nat.le_refl _), Nat.sub_self] at this
              rw [List.getElem?_eq_getElem hlen, ← this]
              rfl

theorem para_ident {is : List Inl} (h : ParaOk is) {l : Bytes} {ls : List Bytes} (hl : splitNl (prints is ++ [c! '\n']) = l :: ls)
    {r : Block.Kind × Span} (hr : Block.identify l = .ok r) : r = (.paragraph, ⟨0, 0⟩) := by
  obtain ⟨_, _, _, _, _, h1⟩ := para_start h hl
  exact h1 r hr

/-- What is written does not start like the caption of a table. -/
theorem okF_noCap {T : List F} (h : okF .bol [] T) (l z : Bytes) (hl : fprint T = l ++ z) : (b! "^ ").isPrefixOf l = false := by
  cases hp : (b! "^ ").isPrefixOf l with
  | false => rfl
  | true =>
    exfalso
    rw [List.isPrefixOf_iff_prefix] at hp
    obtain ⟨y, rfl⟩ := hp
    cases T with
    | nil => simp [fprint] at hl
    | cons f T =>
      have hne := F.print_ne h
      rw [fprint_cons] at hl
      cases hf : f.print with
      | nil => exact absurd hf hne
      | cons d d' =>
        rw [hf] at hl
        simp only [List.cons_append, List.cons.injEq] at hl
        obtain ⟨rfl, hl⟩ := hl
        cases f with
        | ch b => cases hf; exact absurd h.2.1 (by decide)
        | bsl => cases hf
        | lit c => have := h.1; cases this
        | nbsp => have := h.1; cases this
        | rest v n a u t => have := h.1; cases this
        | opn o =>
          cases o with
          | link b u => cases b <;> cases hf
          | mark m b =>
            cases b with
            | true => cases hf
            | false =>
              cases T with
              | nil =>
                obtain ⟨-, ⟨-, -, -, ⟨c, hc, -⟩, -⟩, -⟩ := h
                cases hc
              | cons g T =>
                obtain ⟨e, e', h1, h2, -⟩ := opened_head h
                have hd : d' = [] := ((List.cons.inj (show [m.ch] = _ :: d' from hf)).2).symm
                subst hd
                rw [fprint_cons, h1] at hl
                simp only [List.nil_append, List.cons_append, List.cons.injEq] at hl
                rw [hl.1] at h2
                exact absurd h2 (by decide)
        | cls o =>
          obtain ⟨_, hc, S', hS', _⟩ := h
          cases hS'
        | code v n s =>
          obtain ⟨k, rfl⟩ : ∃ k, n = k + 1 := ⟨n - 1, by have := h.2.1.1.1; omega⟩
          simp [F.print, ticks, List.replicate_succ] at hf
        | nl hard => cases hard <;> cases hf
        | dots => cases hf
        | dash em => cases em <;> cases hf
        | right dd => cases dd <;> cases hf
        | apos => cases hf
        | dols dd => cases dd <;> cases hf
        | note s => cases hf
        | sym s => cases hf
        | auto s => cases hf

theorem para_noCap {is : List Inl} (h : ParaOk is) {l : Bytes} {ls : List Bytes} (hl : splitNl (prints is ++ [c! '\n']) = l :: ls) : (b! "^ ").isPrefixOf l = false := by
  obtain ⟨ho, hfp⟩ := para_pieces h
  obtain ⟨-, z, hz⟩ := first_line hl
  exact okF_noCap ho l z (by rw [hfp]; exact hz)

end Jotdown.Round
