import Verif.Proofs.RoundRow
import Verif.Proofs.RoundAttr
/-! # Round trip: the lines of blocks in a div -/
namespace Jotdown.Round
open Jotdown Jotdown.Notation

theorem quoted_notFence (l : Bytes) : NotFence (quoted l) := by
  intro r hr
  rw [quoted_ident] at hr
  cases hr
  simp

theorem newline_notFence : NotFence [c! '\n'] := by
  intro r hr
  rw [newline_ident hr]
  simp

theorem notFence_runs {k n : Nat} {cls : Bytes} {A : List Bytes} (h : ∀ l ∈ A, NotFence l) : Runs (divKind n cls none) (A.map (padded k)) (divKind n cls none) := by
  refine Runs.all ?_
  intro l hl _ _ _ hr
  obtain ⟨l', hl', rfl⟩ := List.mem_map.1 hl
  exact div_notFence ((h l' hl').pad k) hr

theorem code_runs {k m n : Nat} {cls : Bytes} (hm : 3 ≤ m) {ls : List Bytes} (h : ∀ l ∈ ls, Block.closesFence (c! '`') m l = false) :
    Runs (divKind n cls (some (c! '`', m))) ((ls ++ [ticks m ++ [c! '\n']]).map (padded k)) (divKind n cls none) := by
  rw [List.map_append]
  refine Runs.append (Runs.all (A := ls.map (padded k)) ?_) ⟨divKind n cls none, ?_, rfl⟩
  · intro l hl r hb hs hr
    obtain ⟨l', hl', rfl⟩ := List.mem_map.1 hl
    have := padded_bd hb hs
    rw [div_codeLine hm this.1 this.2 (div_pad hr), h l' hl']; rfl
  · intro r hb hs hr
    have := padded_bd hb hs
    rw [div_codeLine hm this.1 this.2 (div_pad hr), code_closes]; rfl

theorem fence_le {bs : List Blk} {b : Blk} (h : b ∈ bs) : b.fence ≤ blksFence bs := by
  induction bs with
  | nil => cases h
  | cons c bs ih =>
    simp only [blksFence]
    rcases List.mem_cons.1 h with rfl | h
    · omega
    · have := ih h; omega

theorem sep_runs {k n : Nat} {cls : Bytes} (bs : List Blk) : Runs (divKind n cls none) ((sep bs).map (padded k)) (divKind n cls none) := by
  refine notFence_runs ?_
  intro l hl
  cases bs with
  | nil => simp [sep] at hl
  | cons b bs => simp only [sep, List.mem_singleton] at hl; subst hl; exact newline_notFence

theorem itemSep_runs {k n : Nat} {cls : Bytes} (tight : Bool) (its : List (List Blk)) : Runs (divKind n cls none) ((itemSep tight its).map (padded k)) (divKind n cls none) := by
  refine notFence_runs ?_
  intro l hl
  cases its with
  | nil => simp [itemSep] at hl
  | cons b bs =>
    cases tight
    · simp only [itemSep, Bool.false_eq_true, if_false, List.mem_singleton] at hl; subst hl; exact newline_notFence
    · simp [itemSep] at hl

theorem label_runs {k n : Nat} {cls : Bytes} {lb : Label} (h : lb.Ok) {c : UInt8} {cs : Bytes} (hbg : FirstOk (c :: cs)) :
    Runs (divKind n cls none) [padded k (lb.text ++ c! ' ' :: c :: cs)] (divKind n cls none) := by
  refine ⟨_, ?_, rfl⟩
  intro r hb hs hr
  have hbs := padded_bd hb hs
  obtain ⟨next, sp, e1, e2⟩ := div_continues (div_pad hr)
  have := label_ident h hbg hbs.2 e1
  simp only [Prod.mk.injEq] at this
  rw [e2, this.1]
  rfl

/-- The label of a footnote. -/
theorem foot_ident {label l : Bytes} (h : NoteLabel label) {r : Block.Kind × Span} (hr : Block.identify (footLabel label ++ c! ' ' :: l) = .ok r) :
    r = (.definition 0 true label false, ⟨0, (footLabel label).length⟩) := by
  have e : footLabel label ++ c! ' ' :: l = c! '[' :: ((c! '^' :: label) ++ c! ']' :: c! ':' :: c! ' ' :: l) := by simp [footLabel]
  rw [e, identify_cons (.inl (by decide)), Block.identMatch_at5 (by decide) (by decide) (by decide) (by decide) (by decide) rfl] at hr
  obtain ⟨o, ho, hr⟩ := bind_ok hr
  have hf : Block.findByte (c! ']') ((c! '^' :: label) ++ c! ']' :: c! ':' :: c! ' ' :: l) = some (label.length + 1) := by
    have key : ∀ s : Bytes, c! ']' ∉ s → ∀ t, Block.findByte (c! ']') (s ++ c! ']' :: t) = some s.length := by
      intro s
      induction s with
      | nil => intro _ t; simp [Block.findByte]
      | cons x s ih =>
        intro hx t
        simp only [List.mem_cons, not_or] at hx
        rw [List.cons_append, Block.findByte, if_neg (fun e => hx.1 e.symm), ih hx.2]
        rfl
    refine key (c! '^' :: label) ?_ _
    intro hm
    rcases List.mem_cons.1 hm with hm | hm
    · exact absurd hm (by decide)
    · exact (h _ hm).2.1 rfl
  unfold Block.identDefinition at ho
  rw [hf] at ho
  obtain ⟨v, hv, ho⟩ := bind_ok ho
  have hv' := Block.strSlice_val hv
  have hvh : v.head? = some (c! ':') := by
    have e2 : (c! '^' :: label) ++ c! ']' :: c! ':' :: c! ' ' :: l = (c! '^' :: (label ++ [c! ']'])) ++ c! ':' :: c! ' ' :: l := by simp
    rw [hv', List.take_of_length_le (by rw [List.length_drop]; exact Nat.le_refl _), e2, List.drop_left' (by simp)]
    rfl
  rw [if_pos hvh] at ho
  obtain ⟨w, hw, ho⟩ := bind_ok ho
  have hw' := Block.strSlice_val hw
  have hwe : w = c! '^' :: label := by
    rw [hw', List.drop_zero]
    exact List.take_left' (by simp)
  subst hwe
  obtain ⟨z, hz, ho⟩ := bind_ok ho
  have hz' := Block.strSlice_val hz
  simp only [List.head?_cons, beq_self_eq_true, if_true] at hz'
  have hze : z = label := by rw [hz']; simp
  cases ho
  cases hr
  rw [hze]
  simp [footLabel]
  omega

/-- The lines of an item do not end a div around it. -/
theorem itemOf_runs {k n : Nat} {cls text : Bytes} {b : Blk} {bs : List Blk} (hb : b.isPara = true) (h : b.Ok)
    (hfirst : ∀ (c : UInt8) (cs : Bytes), FirstOk (c :: cs) → Runs (divKind n cls none) [padded k (text ++ c! ' ' :: c :: cs)] (divKind n cls none))
    (hrest : Runs (divKind n cls none) ((blkLines bs).map (padded (k + text.length))) (divKind n cls none)) :
    Runs (divKind n cls none) ((itemOf text (blkLines (b :: bs))).map (padded k)) (divKind n cls none) := by
  cases b with
  | para is =>
    have hp : ParaOk is := h
    obtain ⟨A, z, hA1, hA2⟩ := para_lines hp
    obtain ⟨l, L, hL⟩ : ∃ l L, splitNl (prints is ++ [c! '\n']) = l :: L := by
      rw [hA2]; cases A <;> simp
    obtain ⟨c, cs, rfl, c1, c2⟩ := para_first hp hL
    have hnf := para_notFence hp
    simp only [blkLines, Blk.lines, hL, List.cons_append, itemOf, List.map_cons, List.map_append, List.map_map]
    have hpp : (padded k ∘ padded text.length) = padded (k + text.length) := funext (fun x => padded_padded _ _ _)
    rw [hpp]
    refine Runs.append (A := [_]) (hfirst c cs c2) (Runs.append (k1 := divKind n cls none) ?_ (Runs.append (sep_runs (n := n) (cls := cls) bs) hrest))
    refine notFence_runs ?_
    intro x hx
    exact hnf x (by rw [hL]; exact List.mem_cons_of_mem _ hx)
  | _ => cases hb

/-- The lines of a caption. -/
theorem capLines_eq {cap : List Inl} (h : TitleOk cap) : ∃ l L, splitNl (prints cap ++ [c! '\n']) = l :: L ∧ capLines cap = (b! "^ " ++ l) :: L := by
  obtain ⟨A, z, h1, h2⟩ := title_lines h
  obtain ⟨l, L, e⟩ : ∃ l L, A ++ [z ++ [c! '\n']] = l :: L := by cases A <;> simp
  refine ⟨l, L, h2.trans e, ?_⟩
  have hne : cap.isEmpty = false := by
    cases cap with
    | nil =>
      obtain ⟨_, _, _, _, c, hc, -⟩ := h
      cases hc
    | cons _ _ => rfl
  unfold capLines
  rw [h2, e]
  simp [hne]

theorem cap_ident (l : Bytes) {r : Block.Kind × Span} (h : Block.identify (b! "^ " ++ l) = .ok r) : r = (.paragraph, ⟨0, 0⟩) := by
  have e : b! "^ " ++ l = c! '^' :: c! ' ' :: l := rfl
  rw [e, identify_cons (.inl (by decide))] at h
  have : Block.identMatch 0 (c! '^' :: c! ' ' :: l) (trimEnd (c! '^' :: c! ' ' :: l)) (c! '^') (c! ' ' :: l) = .ok none := by
    rfl
  rw [this] at h
  cases h
  rfl

theorem cap_notFence {cap : List Inl} (h : cap = [] ∨ TitleOk cap) : ∀ l ∈ capLines cap, NotFence l := by
  rcases h with rfl | h
  · intro l hl; simp [capLines, splitNl, prints] at hl
  · obtain ⟨l, L, h1, h2⟩ := capLines_eq h
    rw [h2]
    intro x hx
    rcases List.mem_cons.1 hx with rfl | hx
    · intro r hr
      rw [cap_ident l hr]
      simp
    · exact title_notFence h x (by rw [h1]; exact List.mem_cons_of_mem _ hx)

mutual
/-- The lines of a block do not end a div around it, even if they are indented. -/
theorem Blk.runs (b : Blk) (h : b.Ok) {n : Nat} {cls : Bytes} (hn : b.fence < n) (k : Nat) : Runs (divKind n cls none) (b.lines.map (padded k)) (divKind n cls none) := by
  cases b with
  | para is => exact notFence_runs (para_notFence h)
  | brk =>
    refine notFence_runs ?_
    intro l hl r hr
    simp only [Blk.lines, List.mem_singleton] at hl
    subst hl
    rw [brk_ident hr]
    simp
  | code m lang ls =>
    simp only [Blk.Ok] at h
    obtain ⟨h1, h2, h3, h4⟩ := h
    refine ⟨divKind n cls (some (c! '`', m)), ?_, code_runs h1 ?_⟩
    · intro r hb hs hr
      have hbs := padded_bd hb hs
      obtain ⟨next, sp, e1, e2⟩ := div_continues (div_pad hr)
      rw [Block.identify_opens (code_opens h1 h2) hbs.2] at e1
      cases e1
      rw [e2]; rfl
    · intro l hl
      obtain ⟨l', hl', rfl⟩ := List.mem_map.1 hl
      exact (h4 l' hl').2
  | quote bs =>
    refine notFence_runs ?_
    intro l hl
    simp only [Blk.lines] at hl
    obtain ⟨l', -, rfl⟩ := List.mem_map.1 hl
    exact quoted_notFence l'
  | div m c bs =>
    simp only [Blk.Ok] at h
    obtain ⟨h1, h2, h3, h4⟩ := h
    simp only [Blk.fence] at hn
    simp only [Blk.lines, List.map_cons, List.map_append]
    refine ⟨divKind n cls none, ?_, Runs.append (blks_runs bs h3 (fun b hb => by have := h4 b hb; omega) k) ⟨divKind n cls none, ?_, rfl⟩⟩
    · intro r hb hs hr
      obtain ⟨next, sp, e1, e2⟩ := div_continues (div_pad hr)
      have := div_opens h1 h2 e1
      simp only [Prod.mk.injEq] at this
      rw [e2, this.1]
      have hd : decide (n ≤ m) = false := by simp; omega
      simp [Block.fenceContinues, hd, divKind]
    · intro r hb hs hr
      obtain ⟨next, sp, e1, e2⟩ := div_continues (div_pad hr)
      have := div_closes h1 e1
      simp only [Prod.mk.injEq] at this
      rw [e2, this.1]
      have hd : decide (n ≤ m) = false := by simp; omega
      simp [Block.fenceContinues, hd, divKind]
  | list lbs tight items =>
    simp only [Blk.Ok] at h
    obtain ⟨-, -, h3, -, h5⟩ := h
    simp only [Blk.fence] at hn
    simp only [Blk.lines]
    exact items_runs items h5 lbs (fun lb hlb => (h3 lb hlb).1) tight hn k
  | table cap ls =>
    refine notFence_runs ?_
    intro l hl
    simp only [Blk.lines, List.mem_append] at hl
    rcases hl with hl | hl
    · obtain ⟨t, ht, rfl⟩ := List.mem_map.1 hl
      exact TabLine.notFence (h.1.2 t ht)
    · exact cap_notFence h.2 l hl
  | attr w is b =>
    simp only [Blk.Ok] at h
    obtain ⟨h1, h2, h3, h4⟩ := h
    simp only [Blk.fence] at hn
    have e : (Blk.attr w is b).lines.map (padded k) = [Attr.writeAttrs w is ++ [c! '\n']].map (padded k) ++ b.lines.map (padded k) := by simp [Blk.lines]
    rw [e]
    refine Runs.append (notFence_runs ?_) (Blk.runs b h4 hn k)
    intro l hl r hr
    simp only [List.mem_singleton] at hl
    subst hl
    rw [attr_ident h1 h2] at hr
    cases hr
    simp
  | foot label bs =>
    simp only [Blk.Ok] at h
    obtain ⟨h1, h2, h3, -⟩ := h
    simp only [Blk.fence] at hn
    simp only [Blk.lines]
    match bs with
    | [] => simp [startsPara] at h2
    | b :: bs =>
      simp only [BlksOk] at h3
      refine itemOf_runs h2 h3.1 ?_ (blks_runs bs h3.2.2 ?_ _)
      · intro c cs hc
        refine ⟨_, ?_, rfl⟩
        intro r hb hs hr
        obtain ⟨next, sp, e1, e2⟩ := div_continues (div_pad hr)
        have := foot_ident h1 e1
        simp only [Prod.mk.injEq] at this
        rw [e2, this.1]
        rfl
      · intro b' hb'
        have := fence_le hb'
        simp only [blksFence] at hn
        omega
theorem blks_runs (bs : List Blk) (h : BlksOk bs) {n : Nat} {cls : Bytes} (hn : ∀ b ∈ bs, b.fence < n) (k : Nat) :
    Runs (divKind n cls none) ((blkLines bs).map (padded k)) (divKind n cls none) := by
  cases bs with
  | nil => rfl
  | cons b bs =>
    simp only [BlksOk] at h
    simp only [blkLines, List.map_append]
    exact Runs.append (Blk.runs b h.1 (hn b (by simp)) k) (Runs.append (sep_runs bs) (blks_runs bs h.2.2 (fun b hb => hn b (List.mem_cons_of_mem _ hb)) k))
theorem items_runs (items : List (List Blk)) (h : ItemsOk items) (lbs : List Label) (hlb : ∀ lb ∈ lbs, lb.Ok) (tight : Bool) {n : Nat} {cls : Bytes} (hn : itemsFence items < n) (k : Nat) :
    Runs (divKind n cls none) ((itemLines lbs tight items).map (padded k)) (divKind n cls none) := by
  cases items with
  | nil => cases lbs <;> exact rfl
  | cons it its =>
    cases lbs with
    | nil => exact rfl
    | cons lb lbs =>
      simp only [ItemsOk] at h
      obtain ⟨h1, h2, h3⟩ := h
      simp only [itemsFence] at hn
      simp only [itemLines, List.map_append]
      refine Runs.append ?_ (Runs.append (itemSep_runs tight its) (items_runs its h3 lbs (fun l hl => hlb l (List.mem_cons_of_mem _ hl)) tight (by omega) k))
      cases it with
      | nil => simp [startsPara] at h1
      | cons b bs =>
        simp only [BlksOk] at h2
        refine itemOf_runs h1 h2.1 (fun c cs hc => label_runs (hlb lb (by simp)) hc) (blks_runs bs h2.2.2 ?_ _)
        intro b' hb'
        have := fence_le hb'
        simp only [blksFence] at hn
        omega
end

end Jotdown.Round
