import Verif.Spec.Notation
import Verif.Proofs.InlAttr
import Verif.Proofs.InlLex
/-! # Scanning attributes over lines -/
namespace Jotdown.Inline
open Jotdown
open Jotdown.Block (SpanOk sliceOf NlStop)

variable {src : Bytes}

/-! ## Slices -/

theorem slice_length {a b : Nat} (h : b ≤ src.length) : (sliceOf src ⟨a, b⟩).length = b - a := by
  simp [sliceOf]; omega

theorem slice_drop {a b n : Nat} : (sliceOf src ⟨a, b⟩).drop n = sliceOf src ⟨a + n, b⟩ := by
  simp only [sliceOf, List.drop_take, List.drop_drop]
  congr 1; omega

theorem slice_take {a b n : Nat} (h : a + n ≤ b) : (sliceOf src ⟨a, b⟩).take n = sliceOf src ⟨a, a + n⟩ := by
  simp only [sliceOf, List.take_take]
  congr 1; omega

theorem slice_append {a b c : Nat} (h1 : a ≤ b) (h2 : b ≤ c) (h3 : c ≤ src.length) :
    sliceOf src ⟨a, b⟩ ++ sliceOf src ⟨b, c⟩ = sliceOf src ⟨a, c⟩ := by
  have h := (List.take_append_drop (b - a) (sliceOf src ⟨a, c⟩)).symm
  rw [h, slice_take (by omega), slice_drop]
  have : a + (b - a) = b := by omega
  rw [this]

@[simp] theorem slice_nil {a : Nat} : sliceOf src ⟨a, a⟩ = [] := by simp [sliceOf]

theorem slice_head {a b : Nat} (h : a < b) : (sliceOf src ⟨a, b⟩).head? = src[a]? := by
  unfold sliceOf
  have : b - a = (b - a - 1) + 1 := by omega
  simp only
  rw [this]
  cases hd : src.drop a with
  | nil => simp at hd; simp; omega
  | cons c t =>
    have : (src.drop a).head? = some c := by rw [hd]; rfl
    simp at this
    simp [this]

theorem bd_slice {a b : Nat} (h : Bd (src.drop a)) : Bd (sliceOf src ⟨a, b⟩) := h.take _
theorem safe_slice {a b : Nat} (h : Safe src) : Safe (sliceOf src ⟨a, b⟩) := (h.drop _).take _

theorem bd_drop_iff {n : Nat} : Bd (src.drop n) ↔ ∀ c, src[n]? = some c → isCont c = false := by
  unfold Bd
  simp

theorem bd_of_slice {a b n : Nat} (h : Bd ((sliceOf src ⟨a, b⟩).drop n)) (hn : a + n ≤ b) (hb : Bd (src.drop b)) :
    Bd (src.drop (a + n)) := by
  by_cases h1 : a + n = b
  · rw [h1]; exact hb
  · rw [slice_drop] at h
    intro c hc
    apply h c
    rw [slice_head (by omega)]
    simpa using hc

theorem bd_after {n : Nat} (hs : Safe src) {c : UInt8} (h : src[n]? = some c) (hc : c < 128) : Bd (src.drop (n + 1)) := by
  have h1 : src.drop n = c :: src.drop (n + 1) := by
    have hn : n < src.length := (List.getElem?_eq_some_iff.1 h).1
    rw [List.drop_eq_getElem_cons hn]
    congr 1
    have := (List.getElem?_eq_some_iff.1 h).2
    exact this
  have := hs.drop n
  rw [h1] at this
  exact this.1 hc

/-! ## Lines -/

/-- Lines in order from `n` on, up to `H`. -/
inductive Chain (src : Bytes) : Nat → List Span → Nat → Prop
  | nil {n H} : n ≤ H → Chain src n [] H
  | cons {n l ls H} : n ≤ l.start → SpanOk src l → Chain src l.stop ls H → Chain src n (l :: ls) H

theorem Chain.le {n H : Nat} {ls : List Span} (h : Chain src n ls H) : n ≤ H := by
  induction h with
  | nil h => exact h
  | cons h1 h2 _ ih => have := h2.le; omega

theorem Chain.lo {n n' H : Nat} {ls : List Span} (h : Chain src n ls H) (h1 : n' ≤ n) : Chain src n' ls H := by
  cases h with
  | nil h => exact .nil (by omega)
  | cons a b c => exact .cons (by omega) b c

theorem Chain.get {n H : Nat} {ls : List Span} (h : Chain src n ls H) {i : Nat} {l : Span} (hi : ls[i]? = some l) :
    n ≤ l.start ∧ SpanOk src l ∧ Chain src l.stop (ls.drop (i + 1)) H := by
  induction h generalizing i with
  | nil h => simp at hi
  | cons h1 h2 h3 ih =>
    cases i with
    | zero => simp at hi; subst hi; exact ⟨h1, h2, by simpa using h3⟩
    | succ i =>
      simp at hi
      have := ih hi
      have := h2.le
      refine ⟨by omega, (ih hi).2.1, by simpa using (ih hi).2.2⟩

theorem Chain.mem {n H : Nat} {ls : List Span} (h : Chain src n ls H) {l : Span} (hl : l ∈ ls) : n ≤ l.start ∧ SpanOk src l ∧ l.stop ≤ H := by
  obtain ⟨i, hi⟩ := List.mem_iff_getElem?.1 hl
  have := h.get hi
  exact ⟨this.1, this.2.1, this.2.2.le⟩

theorem Chain.lt {n H : Nat} {ls : List Span} (h : Chain src n ls H) {i j : Nat} {a b : Span} (hi : ls[i]? = some a)
    (hj : ls[j]? = some b) (hij : i < j) : a.stop ≤ b.start := by
  have := (h.get hi).2.2
  have hj' : (ls.drop (i + 1))[j - (i + 1)]? = some b := by
    rw [List.getElem?_drop, ← hj]; congr 1; omega
  exact (this.get hj').1

theorem Chain.snoc {n H : Nat} {ls : List Span} {l : Span} (h : Chain src n ls H) (hl : SpanOk src l)
    (h1 : n ≤ l.start) (h2 : ∀ a ∈ ls, a.stop ≤ l.start) (h3 : l.stop ≤ H) : Chain src n (ls ++ [l]) H := by
  induction h with
  | nil h => exact .cons h1 hl (.nil h3)
  | @cons n a ls H x y z ih =>
    exact .cons x y (ih (h2 a (by simp)) (fun b hb => h2 b (by simp [hb])) h3)

/-- A line before a non-empty line ends with a newline. -/
def NlPair (src : Bytes) (a b : Span) : Prop := a.stop < b.stop → NlStop src a.stop

/-- Text of the first lines and of the line with index `n` up to `e`. -/
def textTo (src : Bytes) (L : List Span) (n e : Nat) : Bytes :=
  ((L.take n).map (sliceOf src)).flatten ++ sliceOf src ⟨(L[n]?.map (·.start)).getD 0, e⟩

theorem textTo_next {L : List Span} {n : Nat} {a b : Span} (ha : L[n]? = some a) (hb : L[n + 1]? = some b) :
    textTo src L (n + 1) b.start = textTo src L n a.stop := by
  unfold textTo
  rw [List.take_add_one, ha, hb]
  simp

theorem textTo_app {L : List Span} {n : Nat} {a : Span} (ha : L[n]? = some a) {e e' : Nat} (h1 : a.start ≤ e) (h2 : e ≤ e')
    (h3 : e' ≤ src.length) : textTo src L n e' = textTo src L n e ++ sliceOf src ⟨e, e'⟩ := by
  unfold textTo
  rw [ha]
  simp only [Option.map_some, Option.getD_some, List.append_assoc]
  rw [slice_append h1 h2 h3]

theorem textTo_snoc {L M : List Span} {n e : Nat} (h : n < L.length) : textTo src (L ++ M) n e = textTo src L n e := by
  unfold textTo
  rw [List.getElem?_append_left h, List.take_append_of_le_length (by omega)]

/-! ## Parsing the attributes -/

def EndsNl (a : Bytes) : Prop := ∃ b, a = b ++ [10]

theorem parseTexts_ok (src : Bytes) (endAttr : Nat) (ls : List Span)
    (hsl : ∀ l ∈ ls, strSlice src l.start (min endAttr l.stop) = .ok (sliceOf src ⟨l.start, min endAttr l.stop⟩))
    (hbd : ∀ l ∈ ls, Bd (sliceOf src ⟨l.start, min endAttr l.stop⟩)) (hs : Safe src)
    (hpw : ls.Pairwise (fun a b => sliceOf src ⟨b.start, min endAttr b.stop⟩ ≠ [] →
      sliceOf src ⟨a.start, min endAttr a.stop⟩ = [] ∨ EndsNl (sliceOf src ⟨a.start, min endAttr a.stop⟩)))
    (p : Attr.Parser) (hp : Attr.PInv p []) (hi : p.state ≠ .invalid)
    (hl : ∀ l ∈ ls, sliceOf src ⟨l.start, min endAttr l.stop⟩ ≠ [] → Attr.LineSt p.state)
    (s : Attr.State) (hr : Attr.srun p.state (ls.map (fun l => sliceOf src ⟨l.start, min endAttr l.stop⟩)).flatten = some s) :
    ∃ a, parseAttrLines src endAttr p ls = .ok a ∧ Attr.KeysOk a := by
  induction ls generalizing p with
  | nil => exact ⟨p.attrs, rfl, hp.keys⟩
  | cons l ls ih =>
    rw [List.map_cons, List.flatten_cons, Attr.srun_append] at hr
    cases hx : Attr.srun p.state (sliceOf src ⟨l.start, min endAttr l.stop⟩) with
    | none => simp [hx] at hr
    | some s1 =>
      rw [hx] at hr
      obtain ⟨q, n, h1, h2, h3, -⟩ := Attr.parse_line hp hi (hl l (by simp)) (hbd l (by simp)) (safe_slice hs) hx
      unfold parseAttrLines
      rw [hsl l (by simp)]
      simp only [Bind.bind, Except.bind, h1]
      rw [List.pairwise_cons] at hpw
      refine ih (fun a ha => hsl a (by simp [ha])) (fun a ha => hbd a (by simp [ha])) hpw.2 q h2 ?_ ?_ ?_
      · rw [h3]; exact Attr.srun_ne_invalid hx hi
      · intro b hb hne
        rcases hpw.1 b hb hne with h | ⟨t, h⟩
        · rw [h] at hx
          simp at hx
          rw [h3, ← hx]
          exact hl b (by simp [hb]) hne
        · rw [h3]
          rw [h] at hx
          exact Attr.srun_newline hx
      · rw [h3]; exact hr

theorem endsNl_slice {a b : Nat} (h : a < b) (h2 : b ≤ src.length) (hb : src[b - 1]? = some 10) : EndsNl (sliceOf src ⟨a, b⟩) := by
  refine ⟨sliceOf src ⟨a, b - 1⟩, ?_⟩
  rw [← slice_append (b := b - 1) (by omega) (by omega) h2]
  congr 1
  unfold sliceOf
  have h3 : b - (b - 1) = 1 := by omega
  simp only [h3]
  have hlt : b - 1 < src.length := by omega
  rw [List.drop_eq_getElem_cons hlt]
  rw [List.getElem?_eq_getElem hlt] at hb
  simp at hb
  simp [hb]

/-- What is known about the attributes found so far: they end at `endAttr` in the line `n` of `L`. -/
structure Found (src : Bytes) (L : List Span) (startAttr endAttr n : Nat) : Prop where
  line : ∃ l, L[n]? = some l ∧ l.start ≤ endAttr ∧ endAttr ≤ l.stop
  run : endAttr ≠ startAttr → Attr.srun .start (textTo src L n endAttr) = some .done
  bd : Bd (src.drop endAttr)
  brace : endAttr ≠ startAttr → src[endAttr - 1]? = some (c! '}')
  pos : n = 0 ∨ ∀ l, L[n]? = some l → l.start < endAttr

theorem Found.snoc {L M : List Span} {a b n : Nat} (h : Found src L a b n) : Found src (L ++ M) a b n := by
  obtain ⟨l, h1, h2⟩ := h.line
  have hn : n < L.length := (List.getElem?_eq_some_iff.1 h1).1
  refine ⟨⟨l, by rw [List.getElem?_append_left hn]; exact h1, h2⟩, ?_, h.bd, h.brace, by rw [List.getElem?_append_left hn]; exact h.pos⟩
  rw [textTo_snoc hn]
  exact h.run

theorem getElem?_take_lt {α : Type} {l : List α} {i n : Nat} (h : i < n) : (l.take n)[i]? = l[i]? := by
  rw [List.getElem?_take]; simp [h]

theorem Found.parse (hs : Safe src) {L : List Span} {H startAttr endAttr n : Nat} (hL : Chain src startAttr L H) (hH : H ≤ src.length)
    (hnl : L.Pairwise (NlPair src)) (h : Found src L startAttr endAttr n) (hne : endAttr ≠ startAttr) :
    ∃ a, parseAttrLines src endAttr ⟨[], .start⟩ (L.take (n + 1)) = .ok a ∧ Attr.KeysOk a := by
  obtain ⟨l, hl, h1, h2⟩ := h.line
  have hn : n < L.length := (List.getElem?_eq_some_iff.1 hl).1
  have hstart : ∀ a ∈ L.take (n + 1), a.start ≤ endAttr := by
    intro a ha
    obtain ⟨i, hi⟩ := List.mem_iff_getElem?.1 ha
    have hi2 : i < n + 1 := by
      have := (List.getElem?_eq_some_iff.1 hi).1
      simp at this; omega
    rw [getElem?_take_lt hi2] at hi
    by_cases hin : i = n
    · subst hin; rw [hl] at hi; cases hi; exact h1
    · have := hL.lt hi hl (by omega)
      have := (hL.get hi).2.1.le
      omega
  have hok : ∀ a ∈ L.take (n + 1), SpanOk src ⟨a.start, min endAttr a.stop⟩ := by
    intro a ha
    have hm := hL.mem (List.mem_of_mem_take ha)
    have := hm.2.1.le
    have := hm.2.1.len
    have := hstart a ha
    refine ⟨by simp only; omega, by simp only; omega, hm.2.1.bs, ?_⟩
    simp only
    by_cases h5 : endAttr ≤ a.stop
    · rw [Nat.min_eq_left h5]; exact h.bd
    · rw [Nat.min_eq_right (by omega)]; exact hm.2.1.be
  refine parseTexts_ok src endAttr _ (fun a ha => (hok a ha).slice) (fun a ha => bd_slice (hok a ha).bs) hs ?_ _ ?_ (by simp) (fun _ _ _ => by simp [Attr.LineSt]) .done ?_
  · have hord : (L.take (n + 1)).Pairwise (fun a b => a.stop ≤ b.start ∧ NlPair src a b) := by
      rw [List.pairwise_iff_getElem]
      intro i j hi hj hij
      have e1 := List.getElem?_eq_getElem hi
      have e2 := List.getElem?_eq_getElem hj
      have li := hi; have lj := hj
      simp at li lj
      rw [getElem?_take_lt (by omega)] at e1 e2
      refine ⟨hL.lt e1 e2 hij, ?_⟩
      exact List.pairwise_iff_getElem.1 (hnl.sublist (List.take_sublist _ _)) i j hi hj hij
    refine hord.imp_of_mem ?_
    intro a b ha hb hab hne'
    by_cases hae : sliceOf src ⟨a.start, min endAttr a.stop⟩ = []
    · exact .inl hae
    · right
      have hma := hL.mem (List.mem_of_mem_take ha)
      have hmb := hL.mem (List.mem_of_mem_take hb)
      have hbne : b.start < min endAttr b.stop := by
        refine Nat.lt_of_not_le fun h => hne' ?_
        simp [sliceOf]; omega
      have hane : a.start < min endAttr a.stop := by
        refine Nat.lt_of_not_le fun h => hae ?_
        simp [sliceOf]; omega
      have := hab.1
      have hmin : min endAttr a.stop = a.stop := by omega
      rw [hmin] at hane ⊢
      have hlen := hmb.2.1.len
      refine endsNl_slice hane hma.2.1.len ?_
      rcases hab.2 (by omega) with h6 | h6
      · omega
      · exact h6.2
  · exact ⟨by simp [Attr.needLast], by intro e he; simp at he, by simp⟩
  · rw [← h.run hne]
    congr 1
    unfold textTo
    rw [List.take_add_one, hl]
    simp only [Option.toList_some, List.map_append, List.flatten_append, List.map_cons, List.map_nil, List.flatten_cons,
      List.flatten_nil, List.append_nil, Option.map_some, Option.getD_some]
    rw [Nat.min_eq_left h2]
    congr 2
    apply List.map_congr_left
    intro a ha
    obtain ⟨i, hi⟩ := List.mem_iff_getElem?.1 ha
    have hi2 : i < n := by
      have := (List.getElem?_eq_some_iff.1 hi).1
      simp at this; omega
    rw [getElem?_take_lt hi2] at hi
    have := hL.lt hi hl hi2
    rw [Nat.min_eq_right (by omega)]

theorem slice_last {a b : Nat} {x : UInt8} (h : a < b) (h2 : b ≤ src.length) (hb : src[b - 1]? = some x) : sliceOf src ⟨a, b⟩ = sliceOf src ⟨a, b - 1⟩ ++ [x] := by
  rw [← slice_append (b := b - 1) (by omega) (by omega) h2]
  congr 1
  unfold sliceOf
  have h3 : b - (b - 1) = 1 := by omega
  simp only [h3]
  have hlt : b - 1 < src.length := by omega
  rw [List.drop_eq_getElem_cons hlt]
  rw [List.getElem?_eq_getElem hlt] at hb
  simp at hb
  simp [hb]

theorem mem_slice {a b n : Nat} {x : UInt8} (h : src[n]? = some x) (h1 : a ≤ n) (h2 : n < b) : x ∈ sliceOf src ⟨a, b⟩ := by
  have : (sliceOf src ⟨a, b⟩)[n - a]? = some x := by
    unfold sliceOf
    simp only
    rw [getElem?_take_lt (by omega), List.getElem?_drop]
    rw [← h]; congr 1; omega
  exact List.mem_of_getElem? this

theorem slice_mono {a b a' b' : Nat} {x : UInt8} (h : x ∈ sliceOf src ⟨a, b⟩) (h1 : a' ≤ a) (h2 : b ≤ b') : x ∈ sliceOf src ⟨a', b'⟩ := by
  obtain ⟨i, hi⟩ := List.mem_iff_getElem?.1 h
  unfold sliceOf at hi
  simp only at hi
  rw [List.getElem?_take] at hi
  split at hi
  · rw [List.getElem?_drop] at hi
    exact mem_slice hi (by omega) (by omega)
  · simp at hi

/-- Attributes on one line. -/
theorem Found.written (hs : Safe src) {ls : List Span} {H startAttr stop endAttr n : Nat} (hL : Chain src startAttr (⟨startAttr, stop⟩ :: ls) H) (hH : H ≤ src.length)
    (hnl : (⟨startAttr, stop⟩ :: ls).Pairwise (NlPair src)) (h : Found src (⟨startAttr, stop⟩ :: ls) startAttr endAttr n) (hne : endAttr ≠ startAttr)
    (hopen : src[startAttr]? = some (c! '{')) (hst : startAttr < stop)
    {a : Attr.Attributes} (ha : parseAttrLines src endAttr ⟨[], .start⟩ ((⟨startAttr, stop⟩ :: ls).take (n + 1)) = .ok a) :
    Jotdown.Notation.WrittenAttrs (sliceOf src ⟨startAttr, endAttr⟩) a := by
  obtain ⟨l, hl, h1, h2⟩ := h.line
  have hg := hL.get hl
  have hlen := hg.2.1.len
  have hlt : startAttr < endAttr := by have := hg.1; omega
  have hlast := slice_last hlt (by omega) (h.brace hne)
  refine .inr ⟨by rw [slice_head hlt]; exact hopen, by rw [hlast]; simp, ?_⟩
  intro hno
  have hn : n = 0 := by
    rcases h.pos with h0 | h0
    · exact h0
    · refine Nat.eq_zero_of_not_pos fun hn => ?_
      have hg0 := hL.lt (i := 0) (a := ⟨startAttr, stop⟩) rfl hl hn
      have hp := List.pairwise_cons.1 hnl
      have hmem : l ∈ ls := by
        obtain ⟨m, rfl⟩ : ∃ m, n = m + 1 := ⟨n - 1, by omega⟩
        simp at hl
        exact List.mem_of_getElem? hl
      have hl0 := h0 l hl
      simp only at hg0
      rcases hp.1 l hmem (by show stop < l.stop; omega) with h5 | ⟨h5, h6⟩
      · simp only at h5; omega
      · exact hno (mem_slice h6 (by simp only; omega) (by simp only; omega))
  subst hn
  simp at hl
  subst hl
  simp only at h2
  simp only [Nat.zero_add, List.take_succ_cons, List.take_zero] at ha
  have hbs := hg.2.1.bs
  simp only at hbs
  have hok : SpanOk src ⟨startAttr, endAttr⟩ := ⟨Nat.le_of_lt hlt, by simp only at hlen ⊢; omega, hbs, h.bd⟩
  have hrun := h.run hne
  simp [textTo] at hrun
  obtain ⟨q, m, p1, p2, p3, p4⟩ := Attr.parse_line (p := ⟨[], .start⟩) ⟨by simp [Attr.needLast], by intro e he; simp at he, by simp⟩ (by simp) (by simp [Attr.LineSt]) (bd_slice hok.bs) (safe_slice hs) hrun
  unfold parseAttrLines at ha
  simp only at ha
  rw [Nat.min_eq_left h2, hok.slice] at ha
  simp only [Bind.bind, Except.bind] at ha
  rw [p1] at ha
  simp only [parseAttrLines] at ha
  cases ha
  have htrim : trimEnd (sliceOf src ⟨startAttr, endAttr⟩) = sliceOf src ⟨startAttr, endAttr⟩ := by
    rw [hlast]; exact trimEnd_concat (by decide)
  unfold Attr.tryFrom Attr.parseAttributes
  simp only [htrim]
  rw [p1]
  simp only [Bind.bind, Except.bind]
  rw [if_pos ⟨p4, p3⟩]
  rfl

/-! ## The loop -/

/-- The scan is in the line `lineNext` of `L`, at `lineStart`; `res` and the state of the validator are for the rest of it. -/
structure Scanning (src : Bytes) (L : List Span) (startAttr : Nat) (s : AttrScan) (res : Option Nat) : Prop where
  found : Found src L startAttr s.state.endAttr s.state.validLines
  le : s.state.validLines ≤ s.lineNext
  line : ∃ l, L[s.lineNext]? = some l ∧ l.start ≤ s.lineStart ∧ s.lineStart ≤ l.stop ∧ s.lineEnd = l.stop
  bd : Bd (src.drop s.lineStart)
  opn : s.state.endAttr ≠ startAttr → src[s.state.endAttr]? = some (c! '{')
  run : ∃ s0, Attr.srun .start (textTo src L s.lineNext s.lineStart) = some s0 ∧
    Attr.validatorParse (Attr.norm s0) 0 (sliceOf src ⟨s.lineStart, s.lineEnd⟩) = .ok (res, s.state.validator)

/-- After the scan. -/
structure Scanned (src : Bytes) (L : List Span) (startAttr : Nat) (elemTy : ElemTy) (complete : Bool) (s : AttrScan) (more : Bool) : Prop where
  found : Found src L startAttr s.state.endAttr s.state.validLines
  le : s.state.validLines ≤ s.lineNext
  line : ∃ l, L[s.lineNext]? = some l ∧ s.lineEnd = l.stop
  ty : s.state.elemTy = elemTy
  opn : s.state.endAttr ≠ startAttr → more = true ∨ s.state.validLines < s.lineNext → src[s.state.endAttr]? = some (c! '{')
  more : more = true → complete = false ∧ s.lineNext + 1 = L.length ∧
    ∃ s0, Attr.srun .start (textTo src L s.lineNext s.lineEnd) = some s0 ∧ Attr.norm s0 = s.state.validator

theorem srun_start_bd {cs : Bytes} {e : Nat} (hs : Safe src) (he : e ≤ src.length) {a : Nat} (ha : a < e)
    {s : Attr.State} (hsd : s ≠ .done) (hr : Attr.srun s (sliceOf src ⟨a, e⟩) = some .done) : Bd (src.drop e) ∧ src[e - 1]? = some (c! '}') := by
  have hlast : ∃ l, sliceOf src ⟨a, e⟩ = l ++ [c! '}'] := by
    have := Attr.frun_srun ⟨[], s⟩ [] (sliceOf src ⟨a, e⟩)
    rw [hr] at this
    cases hx : Attr.frun (⟨[], s⟩, []) (sliceOf src ⟨a, e⟩) with
    | none => simp [hx] at this
    | some x =>
      rw [hx] at this
      simp at this
      exact Attr.last_of_done (by simpa using hsd) hx this
  obtain ⟨l, hl⟩ := hlast
  have hlen := congrArg List.length hl
  rw [slice_length he] at hlen
  simp at hlen
  have h1 : src[e - 1]? = some (c! '}') := by
    have : (sliceOf src ⟨a, e⟩)[e - 1 - a]? = some (c! '}') := by
      rw [hl, List.getElem?_append_right (by omega)]
      have : e - 1 - a - l.length = 0 := by omega
      rw [this]; rfl
    unfold sliceOf at this
    simp only at this
    rw [getElem?_take_lt (by omega), List.getElem?_drop] at this
    rw [← this]; congr 1; omega
  have := bd_after hs h1 (by decide)
  have h2 : e - 1 + 1 = e := by omega
  rw [h2] at this
  exact ⟨this, h1⟩

theorem attrLoop_ok (hs : Safe src) {ahead : List Span} {complete : Bool} {startAttr lineStop H : Nat}
    (hL : Chain src startAttr (⟨startAttr, lineStop⟩ :: ahead) H) (hH : H ≤ src.length) :
    ∀ (fuel : Nat) {s : AttrScan} {res : Option Nat}, Scanning src (⟨startAttr, lineStop⟩ :: ahead) startAttr s res →
      (src.length - s.lineStart) + (ahead.length - s.lineNext) < fuel →
      Sat Never (attrLoop src ahead complete fuel s res)
        (fun r => Scanned src (⟨startAttr, lineStop⟩ :: ahead) startAttr s.state.elemTy complete r.1 r.2) := by
  intro fuel
  induction fuel with
  | zero => intro s res _ h; omega
  | succ fuel ih =>
    intro s res h hf
    obtain ⟨l, hl, hl1, hl2, hl3⟩ := h.line
    obtain ⟨s0, hr0, hv0⟩ := h.run
    have hls := (hL.get hl).2.1
    have hlen := hls.len
    have hs0 : s0 ≠ .invalid := Attr.srun_ne_invalid hr0 (by simp)
    obtain ⟨o, v, e1, e2, e3⟩ := Attr.validatorParse_srun (Attr.norm s0) 0 (sliceOf src ⟨s.lineStart, s.lineEnd⟩)
      (Attr.norm_ne_done _) (Attr.norm_ne_invalid hs0)
    rw [e1] at hv0
    injection hv0 with hv0
    simp only [Prod.mk.injEq] at hv0
    obtain ⟨rfl, rfl⟩ := hv0
    unfold attrLoop
    cases o with
    | some len =>
      simp only
      by_cases hlen0 : len = 0
      · rw [if_pos hlen0]
        exact ⟨h.found, h.le, ⟨l, hl, hl3⟩, rfl, fun h1 _ => h.opn h1, by simp⟩
      · rw [if_neg hlen0]
        rcases e3 len rfl with h5 | ⟨_, h6, h7⟩
        · exact absurd h5 hlen0
        rw [Nat.sub_zero] at h7
        rw [Nat.zero_add, slice_length (by omega)] at h6
        rw [slice_take (by omega)] at h7
        obtain ⟨hbd, hbrace⟩ : Bd (src.drop (s.lineStart + len)) ∧ _ := srun_start_bd (cs := []) hs (by omega) (by omega) (Attr.norm_ne_done _) h7
        have hrun : Attr.srun .start (textTo src (⟨startAttr, lineStop⟩ :: ahead) s.lineNext (s.lineStart + len)) = some .done := by
          rw [textTo_app hl hl1 (by omega : s.lineStart ≤ s.lineStart + len) (by omega), Attr.srun_append, hr0]
          simp only [Option.bind_some]
          rw [← Attr.srun_norm s0 _ ?_]
          · exact h7
          · intro h0
            have := congrArg List.length h0
            rw [slice_length (by omega)] at this
            simp at this; omega
        have hfound : Found src (⟨startAttr, lineStop⟩ :: ahead) startAttr (s.lineStart + len) s.lineNext :=
          ⟨⟨l, hl, by omega, by omega⟩, fun _ => hrun, hbd, fun _ => hbrace, .inr (fun l' hl' => by rw [hl] at hl'; cases hl'; omega)⟩
        rw [strSlice_ok (by omega) (Nat.le_refl _) hbd (by simp)]
        simp only [Bind.bind, Except.bind]
        split
        · rename_i hnext
          rw [hl3, strSlice_ok (by omega) hls.len hbd hls.be]
          simp only
          obtain ⟨o', v', f1, f2, f3⟩ := Attr.validatorParse_srun .start 0 ((src.drop (s.lineStart + len)).take (l.stop - (s.lineStart + len))) (by simp) (by simp)
          rw [f1]
          simp only
          refine ih ⟨hfound, Nat.le_refl _, ⟨l, hl, by simp only; omega, by simp only; omega, rfl⟩, hbd, ?_, .done, hrun, ?_⟩ (by simp only; omega)
          · intro _
            rw [List.take_of_length_le (by simp)] at hnext
            simpa using hnext
          · exact f1
        · exact ⟨hfound, Nat.le_refl _, ⟨l, hl, hl3⟩, rfl, fun _ h => by simp at h, by simp⟩
    | none =>
      obtain ⟨g1, g2, g3⟩ := e2 rfl
      have hrun : ∃ s1, Attr.srun .start (textTo src (⟨startAttr, lineStop⟩ :: ahead) s.lineNext s.lineEnd) = some s1 ∧
          Attr.norm s1 = s.state.validator := by
        rw [textTo_app hl hl1 (by omega : s.lineStart ≤ s.lineEnd) (by omega), Attr.srun_append, hr0]
        simp only [Option.bind_some]
        by_cases h0 : sliceOf src ⟨s.lineStart, s.lineEnd⟩ = []
        · rw [h0] at g1 ⊢
          simp at g1
          exact ⟨s0, rfl, g1⟩
        · rw [← Attr.srun_norm s0 _ h0]
          refine ⟨_, g1, ?_⟩
          simp [Attr.norm, g2]
      simp only
      cases hn : ahead[s.lineNext]? with
      | some l' =>
        have hl' : (⟨startAttr, lineStop⟩ :: ahead)[s.lineNext + 1]? = some l' := by simpa using hn
        have hls' := (hL.get hl').2.1
        simp only
        rw [hls'.slice]
        simp only [Bind.bind, Except.bind]
        obtain ⟨s1, hr1, hn1⟩ := hrun
        obtain ⟨o', v', f1, f2, f3⟩ := Attr.validatorParse_srun s.state.validator 0 (sliceOf src l') g2 g3
        rw [f1]
        simp only
        have hlt : s.lineNext < ahead.length := (List.getElem?_eq_some_iff.1 hn).1
        have hord := hL.lt hl hl' (by omega)
        refine ih ⟨h.found, by have := h.le; simp only; omega, ⟨l', hl', by simp, hls'.le, rfl⟩, hls'.bs, h.opn, s1, ?_, ?_⟩ (by simp only; omega)
        · rw [textTo_next hl hl', ← hl3]; exact hr1
        · rw [hn1]; exact f1
      | none =>
        refine ⟨h.found, h.le, ⟨l, hl, hl3⟩, rfl, fun h1 _ => h.opn h1, ?_⟩
        intro hc
        simp at hc hn
        refine ⟨by simpa using hc, ?_, hrun⟩
        have := (List.getElem?_eq_some_iff.1 hl).1
        simp at this ⊢
        omega

end Jotdown.Inline
