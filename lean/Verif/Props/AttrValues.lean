import Verif.Proofs.AttrJoin
import Verif.Spec.Attr
/-! # Properties of attribute sets and values: C05, C06, C07, C08 -/
namespace Jotdown.Attr
open Jotdown

theorem foldl_class (a : Attributes) (v k : Bytes) :
    a.foldl (fun v e => if e.1.key == some k then extend v e.2 else v) v = (withKey a k).foldl extend v := by
  induction a generalizing v with
  | nil => rfl
  | cons e a ih =>
    rw [List.foldl_cons, ih]
    unfold withKey
    by_cases h : e.1.key == some k
    · simp [h]
    · simp [h]

/-- C05: `get_value(k)` is the value of the last element with key `k`. -/
theorem C05_get_value_last (a : Attributes) (k : Bytes) (hk : k ≠ b! "class") :
    getValue a k = (withKey a k).getLast? := by
  unfold getValue withKey
  rw [if_neg hk, List.getLast?_map, ← List.head?_reverse, ← List.filter_reverse, List.head?_filter]

/-- C05: `get_value("class")` is the non-empty class values joined by single spaces, or none. -/
theorem C05_get_value_class (a : Attributes) :
    getValue a (b! "class") =
      if joinNonEmpty (withKey a (b! "class")) = [] then none
      else some (joinNonEmpty (withKey a (b! "class"))) := by
  unfold getValue
  rw [if_pos rfl]
  simp only [foldl_class, foldl_extend]
  rw [joinNonEmpty_cons]
  simp

/-- Not vacuous. -/
example : getValue [(.cls, b! "a"), (.pair (b! "k"), b! "1"), (.pair (b! "class"), b! ""), (.pair (b! "class"), b! "b"),
      (.pair (b! "k"), b! "2"), (.comment, b! "k")] (b! "class") = some (b! "a b") ∧
    getValue [(.cls, b! "a"), (.pair (b! "k"), b! "1"), (.pair (b! "k"), b! "2"), (.comment, b! "k")] (b! "k") = some (b! "2") := by
  decide +kernel

/-- C06: `contains_key(k)` holds exactly when some non-comment element has key `k`. -/
theorem C06_contains_key (a : Attributes) (k : Bytes) :
    containsKey a k = true ↔ ∃ e ∈ a, e.1 ≠ .comment ∧ e.1.key = some k := by
  unfold containsKey
  rw [List.any_eq_true]
  constructor
  · rintro ⟨e, he, h⟩
    refine ⟨e, he, ?_, by simpa using h⟩
    intro hc; rw [hc] at h; simp [AttrKind.key] at h
  · rintro ⟨e, he, _, h⟩
    exact ⟨e, he, by simp [h]⟩

theorem withKey_ne_nil (a : Attributes) (k : Bytes) : withKey a k ≠ [] ↔ containsKey a k = true := by
  unfold withKey containsKey
  rw [List.any_eq_true]
  simp [List.filter_eq_nil_iff]

/-- C06: for keys other than `class`, `contains_key` agrees with `get_value`. -/
theorem C06_contains_key_iff_get_value (a : Attributes) (k : Bytes) (hk : k ≠ b! "class") :
    containsKey a k = true ↔ (getValue a k).isSome := by
  rw [C05_get_value_last a k hk, ← withKey_ne_nil]
  cases h : withKey a k with
  | nil => simp
  | cons x l => simp [List.getLast?_cons]

/-- Not vacuous; and an empty class is contained without having a value. -/
example : containsKey [(.pair (b! "k"), b! "")] (b! "k") = true ∧ containsKey [(.comment, b! "k")] (b! "k") = false ∧
    containsKey [(.pair (b! "class"), b! "")] (b! "class") = true ∧
    getValue [(.pair (b! "class"), b! "")] (b! "class") = none := by decide +kernel

theorem any_key_eq (b : Attributes) (k : Bytes) :
    b.any (fun e => e.1.key == some k) = (keysOf b).contains k := by
  induction b with
  | nil => rfl
  | cons e b ih =>
    rw [List.any_cons, ih]
    unfold keysOf
    cases hk : e.1.key with
    | none => simp [hk]
    | some k' => simp [hk]; rw [Bool.beq_comm]

/-- The keys of the pairs from a position on. -/
theorem pairsFrom_keys (before rest : Attributes) :
    (pairsFrom before rest).map (·.1) =
      ((keysOf rest).filter (fun k => !(keysOf before).contains k)).eraseDups := by
  induction rest generalizing before with
  | nil => rfl
  | cons e rest ih =>
    obtain ⟨k, v⟩ := e
    have ih := ih (before ++ [(k, v)])
    unfold pairsFrom
    cases hk : k.key with
    | none =>
      simp only
      rw [ih]
      simp [keysOf, hk]
    | some key =>
      simp only [any_key_eq]
      have hkeys : keysOf ((k, v) :: rest) = key :: keysOf rest := by simp [keysOf, hk]
      have hkb : keysOf (before ++ [(k, v)]) = keysOf before ++ [key] := by simp [keysOf, hk]
      rw [hkeys, List.filter_cons]
      by_cases hc : (keysOf before).contains key
      · simp only [hc, if_true, Bool.not_true]
        rw [ih, hkb]
        simp only [Bool.false_eq_true, if_false]
        congr 1
        apply List.filter_congr
        intro x _
        rw [List.contains_eq_mem, List.contains_eq_mem]
        have : key ∈ keysOf before := by simpa using hc
        by_cases hx : x = key
        · subst hx; simp [this]
        · simp [hx]
      · have key2 : ∀ w : Bytes, ((key, w) :: pairsFrom (before ++ [(k, v)]) rest).map (·.1) =
            (key :: (keysOf rest).filter (fun k => !(keysOf before).contains k)).eraseDups := by
          intro w
          rw [List.map_cons, ih, hkb, List.eraseDups_cons, List.filter_filter]
          congr 2
          apply List.filter_congr
          intro x _
          rw [List.contains_eq_mem, List.contains_eq_mem]
          by_cases hx : x = key
          · subst hx; simp
          · simp [hx]
        simp only [hc, Bool.false_eq_true, if_false, Bool.not_false, if_true]
        split
        · exact key2 _
        · split
          · exact key2 _
          · exact key2 _

/-- C07: `unique_pairs` emits every key of a non-comment element exactly once, in the order of the
first occurrences. -/
theorem C07_unique_pairs_keys (a : Attributes) : (uniquePairs a).map (·.1) = (keysOf a).eraseDups := by
  unfold uniquePairs
  rw [pairsFrom_keys]
  congr 1
  rw [List.filter_eq_self]
  intro x _; simp [keysOf]

theorem eraseDups_nodup (l : List Bytes) : l.eraseDups.Nodup := by
  induction hn : l.length using Nat.strongRecOn generalizing l with
  | ind n ih =>
    cases l with
    | nil => simp
    | cons c l =>
      rw [List.eraseDups_cons, List.nodup_cons]
      constructor
      · rw [List.mem_eraseDups]; simp
      · apply ih _ _ _ rfl
        have := List.length_filter_le (fun b => !b == c) l
        simp at hn; omega

/-- C07: no key is emitted twice, and the emitted keys are those with `contains_key`. -/
theorem C07_unique_pairs_once (a : Attributes) :
    ((uniquePairs a).map (·.1)).Nodup ∧ ∀ k, k ∈ (uniquePairs a).map (·.1) ↔ containsKey a k = true := by
  rw [C07_unique_pairs_keys]
  refine ⟨eraseDups_nodup _, fun k => ?_⟩
  rw [List.mem_eraseDups]
  unfold containsKey
  rw [any_key_eq]; simp

theorem pairsFrom_values (a before rest : Attributes) (ha : a = before ++ rest) (k v : Bytes)
    (h : (k, v) ∈ pairsFrom before rest) : v = (getValue a k).getD [] := by
  induction rest generalizing before with
  | nil => simp [pairsFrom] at h
  | cons e rest ih =>
    obtain ⟨k', v'⟩ := e
    have ih := ih (before ++ [(k', v')]) (by rw [ha]; simp)
    unfold pairsFrom at h
    cases hk : k'.key with
    | none => rw [hk] at h; exact ih h
    | some key =>
      rw [hk] at h
      simp only at h
      split at h
      · exact ih h
      rename_i hany
      have hb : withKey before key = [] := by
        have : ¬ containsKey before key = true := hany
        rw [← withKey_ne_nil] at this
        simpa using this
      have hw : withKey a key = v' :: withKey rest key := by
        unfold withKey at hb ⊢
        rw [ha, List.filter_append, List.map_append, hb]
        simp [hk]
      split at h
      · rename_i hcls
        rcases List.mem_cons.mp h with h | h
        · injection h with h1 h2
          subst h1
          rw [h2, hcls, C05_get_value_class, ← hcls, hw, ← foldl_extend, foldl_class]
          split
          · rename_i h0
            simp [h0]
          · rfl
        · exact ih h
      · rename_i hcls
        have hval : (getValue a key).getD [] = ((withKey rest key).getLast?).getD v' := by
          rw [C05_get_value_last a key hcls, hw, List.getLast?_cons]; simp
        have hlast : ((withKey rest key).getLast?) = (rest.reverse.find? (fun e => e.1.key == some key)).map (·.2) := by
          unfold withKey
          rw [List.getLast?_map, ← List.head?_reverse, ← List.filter_reverse, List.head?_filter]
        split at h
        · rename_i e he
          rcases List.mem_cons.mp h with h | h
          · injection h with h1 h2
            subst h1
            rw [h2, hval, hlast, he]; rfl
          · exact ih h
        · rename_i he
          rcases List.mem_cons.mp h with h | h
          · injection h with h1 h2
            subst h1
            rw [h2, hval, hlast, he]; rfl
          · exact ih h

/-- C07: the value emitted with a key is that of `get_value` (the empty value if all class values
are empty). -/
theorem C07_unique_pairs_values (a : Attributes) (k v : Bytes) (h : (k, v) ∈ uniquePairs a) :
    v = (getValue a k).getD [] ∧ (k ≠ b! "class" → getValue a k = some v) := by
  have hv := pairsFrom_values a [] a rfl k v h
  refine ⟨hv, fun hk => ?_⟩
  have hmem : k ∈ (uniquePairs a).map (·.1) := List.mem_map.mpr ⟨(k, v), h, rfl⟩
  rw [(C07_unique_pairs_once a).2, C06_contains_key_iff_get_value a k hk] at hmem
  cases hg : getValue a k with
  | none => rw [hg] at hmem; simp at hmem
  | some w => rw [hv, hg]; rfl

/-- Not vacuous. -/
example : uniquePairs [(.cls, b! "a"), (.pair (b! "k"), b! "1"), (.comment, b! "x"), (.pair (b! "class"), b! "b"), (.pair (b! "k"), b! "2")] =
    [(b! "class", b! "a b"), (b! "k", b! "2")] := by decide +kernel

/-- The loop of the parts iterator. -/
theorem partAt_spec (ahead : Bytes) (i : Nat) (s : Bytes) (hs : s = ahead.drop i) (hi : i ≤ ahead.length)
    (hu : unescape ahead = ahead.take i ++ unescape s) :
    match partAt ahead i s with
    | some (part, rest) => unescape ahead = part ++ unescape rest
    | none => unescape ahead = ahead := by
  induction s generalizing i with
  | nil =>
    simp only [partAt]
    rw [hu]
    have : ahead.length ≤ i := by
      have := congrArg List.length hs; simp at this; omega
    rw [List.take_of_length_le this]; simp [unescape]
  | cons c r ih =>
    have hlen : i < ahead.length := by
      have := congrArg List.length hs; simp at this; omega
    have hr : r = ahead.drop (i + 1) := by rw [← List.tail_drop, ← hs]; rfl
    have htake : ahead.take (i + 1) = ahead.take i ++ [c] := by
      rw [List.take_add_one]
      congr 1
      have : ahead[i]? = some c := by rw [← List.head?_drop, ← hs]; rfl
      rw [this]; rfl
    have next : unescape (c :: r) = c :: unescape r → unescape ahead = ahead.take (i + 1) ++ unescape r := by
      intro h; rw [hu, htake, h]; simp
    unfold partAt
    by_cases hc : c = c! '\\'
    · rw [if_pos hc]
      cases r with
      | nil =>
        simp only
        rw [hu, unescape]
        have := List.take_append_drop i ahead
        rw [← hs] at this; exact this
      | cons d r' =>
        have hr' : r' = ahead.drop (i + 2) := by rw [← List.tail_drop, ← hr]; rfl
        simp only
        by_cases hd : d = c! '\\'
        · rw [if_pos hd]
          simp only
          rw [hu, htake, ← hr', unescape, hc, hd]
          simp [isPunct]
        · rw [if_neg hd]
          by_cases hp : isPunct d = true
          · rw [if_pos hp]
            simp only
            rw [hu, ← hr, unescape, if_pos ⟨hc, hp⟩]
            congr 1
            cases r' with
            | nil => simp [unescape]
            | cons e r'' => rw [unescape, if_neg (by simp [hd])]
          · rw [if_neg hp]
            apply ih (i + 1) hr (by omega)
            apply next
            rw [unescape, if_neg (by simp [hp])]
    · rw [if_neg hc]
      apply ih (i + 1) hr (by omega)
      apply next
      cases r with
      | nil => simp [unescape]
      | cons d r' => rw [unescape, if_neg (by simp [hc])]

/-- C08: displaying an attribute value removes each backslash before ASCII punctuation, scanning
left to right, and changes nothing else; the parts concatenate to the same string. -/
theorem C08_display_unescapes (raw : Bytes) :
    display raw = unescape raw ∧ (parts raw).flatten = unescape raw := by
  suffices h : (parts raw).flatten = unescape raw from ⟨h, h⟩
  induction hn : raw.length using Nat.strongRecOn generalizing raw with
  | ind n ih =>
    unfold parts
    have hspec := partAt_spec raw 0 raw rfl (by omega) (by simp)
    split
    · rename_i part rest hp
      rw [hp] at hspec
      simp only at hspec
      rw [List.flatten_cons, ih rest.length (by rw [← hn]; exact partAt_lt raw 0 raw part rest rfl hp) rest rfl, hspec]
    · rename_i hp
      rw [hp] at hspec
      simp only at hspec
      rw [hspec]
      cases raw <;> simp

/-- Not vacuous: escapes, an escaped backslash, a backslash that is kept. -/
example : display (b! "a\\\"b\\\\\\.c\\d\\") = b! "a\"b\\.c\\d\\" := by decide +kernel

end Jotdown.Attr
