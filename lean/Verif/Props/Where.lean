import Verif.LiesDocs
import Verif.Props.Echo
/-
Which part of the text a value was read from, and that setting it replaces just this part (C77).
-/
namespace Verif

/-- The value `x` was read from the characters from `b` to `d`: in the text it is inside the root, which is after the header and the white space (see `Within`), its place in the
text (see `Sits`) begins at `b` and ends at `d`, not counting white space and comments at the end.  Of a value that is missing, nothing was read; it belongs directly after the
colon, before the white space. -/
def ReadFrom (inp : Bytes) (doc : Document) (x : Nat) (b d : Nat) : Prop := ∃ r s lo hi, inp.drop r = skipBlank false (body inp) ∧
  Within inp doc.data.view .block doc.root r s x lo ∧ Sits inp doc.data.view s x lo hi ∧
  (b = lo ∧ lo ≤ d ∧ (hi = d ∨ FullGap inp d hi) ∨ d = b ∧ hi = lo ∧ FullGap inp b lo)

theorem slice_drop {inp : Bytes} {d : Nat} : slice inp d inp.length = inp.drop d := by
  rw [slice, List.take_of_length_le (by simp)]

theorem parsed_where {inp : Bytes} {R : Bytes → Bytes → Prop} (A : Allows inp R) {doc : Document} (h : Parsed inp doc) {x : Nat} (hx : Live doc x) :
    ∃ (k b d : Nat) (before old after : Bytes), k ≤ b ∧ b ≤ d ∧ d ≤ inp.length ∧ inp.drop k = body inp ∧ ReadFrom inp doc x b d ∧
      R (slice inp k b) before ∧ R (slice inp b d) old ∧ R (inp.drop d) after ∧
      valueText doc.data x = .ok old ∧ doc.write = .ok (before ++ old ++ after) ∧
      ∀ op doc', op.isSet = true → doc.edit x op = .ok doc' → ∃ new, valueText doc'.data x = .ok new ∧ doc'.write = .ok (before ++ new ++ after) := by
  obtain ⟨t, u, s, k, b, d, r, lo, p, q, ht, hu, h1, h2, h3, h4, w1, g1, w2, h5, h6, h7, h8, h9, -⟩ := parsed_part A h hx
  obtain ⟨par, ha⟩ := ht.at hu
  obtain ⟨lo1, hi, w3, g2, g3, g4⟩ := h4.sits
  obtain rfl : lo1 = lo := by rw [← w3.eq, g1.eq]
  have hr : inp.drop r = skipBlank false (body inp) := by rw [← h2, skipBlank_eq, List.drop_drop, ← w1.eq, wsEnd]
  have g2 := g2.ids ha.rep
  rw [ha.id] at g2
  have hset : ∀ op doc', op.isSet = true → doc.edit x op = .ok doc' → ∃ new, valueText doc'.data x = .ok new ∧ doc'.write = .ok (p ++ u.pre ++ new ++ q) := by
    intro op doc' hs he
    obtain ⟨s, _, hsuf, _, h3⟩ := ht.editSet hu hs he
    obtain ⟨_, ha'⟩ := h3.at (Tree.find_upd hu rfl)
    exact ⟨_, ha'.text, by simpa [Tree.text] using h9 doc' _ rfl hsuf h3⟩
  have hw : doc.write = .ok (p ++ u.pre ++ u.render ++ q) := by rw [h8, Tree.text]; simp
  have hd := (h4.keeps A).1
  rcases h4.own A with ⟨lo', k1, k2, k3, k4⟩ | ⟨k1, k2⟩
  · obtain rfl : lo' = lo1 := by rw [← k1.eq, g1.eq]
    rw [Tree.erase_pre] at k2
    rw [Tree.erase_render] at k4
    by_cases hb : b = lo'
    · subst hb
      rw [slice_none (Nat.le_refl _)] at k2
      refine ⟨k, b, d, p ++ u.pre, u.render, q, h1, k3, h3, h2, ⟨r, s, b, hi, hr, w2, g2, ?_⟩, by rw [k2, List.append_nil]; exact h5, k4, h7, ha.text, hw, hset⟩
      rcases g3 with ⟨-, g3⟩ | ⟨-, g3, g5, -⟩
      · refine .inl ⟨rfl, g3, ?_⟩
        rcases g4 with g4 | g4
        · exact .inl g4
        · exact .inr g4.1
      · exact .inr ⟨g3, g5, k1⟩
    · have hl : b < lo' := by have := k1.le; omega
      refine ⟨k, lo', d, p ++ u.pre, u.render, q, by omega, k3, h3, h2, ⟨r, s, lo', hi, hr, w2, g2, .inl ⟨rfl, k3, ?_⟩⟩, ?_, k4, h7, ha.text, hw, hset⟩
      · rcases g4 with g4 | g4
        · exact .inl g4
        · exact .inr g4.1
      · rw [k2, ← slice_append h1 (Nat.le_of_lt hl)]
        exact A.append h5 (A.refl _)
  · subst k2
    rw [Tree.erase_text, Tree.text, List.append_eq_nil_iff] at k1
    refine ⟨k, d, d, p ++ u.pre, u.render, q, h1, Nat.le_refl _, h3, h2, ⟨r, s, lo1, hi, hr, w2, g2, ?_⟩, by rw [k1.1, List.append_nil]; exact h5,
      by rw [slice_none (Nat.le_refl _), k1.2]; exact A.refl _, h7, ha.text, hw, hset⟩
    rcases g3 with ⟨g3, g5⟩ | ⟨-, -, g5, -⟩
    · obtain rfl : lo1 = d := by have := g1.le; omega
      refine .inl ⟨rfl, Nat.le_refl _, ?_⟩
      rcases g4 with g4 | g4
      · exact .inl g4
      · exact .inr g4.1
    · exact .inr ⟨rfl, g5, g1⟩

/-- C77: what is written before a value is all that was read before it, what is written of it is all that was read for it, and what is written after it is all that was read
after it, except for what is said in `Kept`; and after any `set_*` only the part for the value is another. -/
theorem C77_kept {inp : Bytes} {doc : Document} (h : Parsed inp doc) {x : Nat} (hx : Live doc x) :
    ∃ (k b d : Nat) (before old after : Bytes), k ≤ b ∧ b ≤ d ∧ d ≤ inp.length ∧ inp.drop k = body inp ∧ ReadFrom inp doc x b d ∧
      Kept (slice inp k b) before ∧ Kept (slice inp b d) old ∧ Kept (inp.drop d) after ∧
      valueText doc.data x = .ok old ∧ doc.write = .ok (before ++ old ++ after) ∧
      ∀ op doc', op.isSet = true → doc.edit x op = .ok doc' → ∃ new, valueText doc'.data x = .ok new ∧ doc'.write = .ok (before ++ new ++ after) :=
  parsed_where (allows_kept inp) h hx

theorem Tidied.cut {a b c d : Bytes} (h1 : Tidied a b) (h2 : Tidied c d) (h : b ++ d = a ++ c) : b = a ∧ d = c := by
  have e1 := congrArg (List.count HASH) h
  have e2 := congrArg (List.count COMMA) h
  have e3 := congrArg (List.count 0) h
  have e4 := congrArg List.length h
  simp only [List.count_append, List.length_append] at e1 e2 e3 e4
  have a1 := h1.hash
  have a2 := h2.hash
  obtain ⟨b1, b2, b3⟩ := h1.rest (by omega)
  obtain ⟨c1, c2, c3⟩ := h2.rest (by omega)
  obtain ⟨b4, b5⟩ := b3 (by omega) (by omega)
  obtain ⟨c4, c5⟩ := c3 (by omega) (by omega)
  exact ⟨b5 (by omega), c5 (by omega)⟩

theorem allows_tidied {x : Bytes} (hf : followed x = true) (hc : noWsComma x = true ∨ LBR ∉ x) (hu : validUtf8 x = true ∨ HASH ∉ x) : Allows x Tidied where
  refl := Tidied.refl
  append := Tidied.append
  comma := fun _ => ⟨by decide, fun _ => ⟨by decide, by decide, fun h => absurd h (by decide)⟩⟩
  lost := fun _ n _ _ => Tidied.of_ws n
  nul := fun _ _ => ⟨by decide, fun _ => ⟨by decide, by decide, fun _ h => absurd h (by decide)⟩⟩
  dup := fun h => by rw [hf] at h; cases h
  lossy := fun n hn hc => by rw [wsStr_lossy hu hn hc]; exact Tidied.refl _
  swap := fun h hb => by
    rcases hc with hc | hc
    · rw [hc] at h; cases h
    · exact absurd hb hc

/-- C77, exactly: in a text that is written as it was read, the value is written as what it was read from, and setting it replaces just these characters.
(The text must be without header, without block scalars without a body, without commas after white space if there are lists in brackets, and UTF-8 or without comments.) -/
theorem C77_exact {inp : Bytes} {doc : Document} (h : Parsed inp doc) (hw : doc.write = .ok inp) (hh : hasHeader inp = false) (hf : followed inp = true)
    (hc : noWsComma inp = true ∨ LBR ∉ inp) (hu : validUtf8 inp = true ∨ HASH ∉ inp) {x : Nat} (hx : Live doc x) :
    ∃ b d, b ≤ d ∧ d ≤ inp.length ∧ ReadFrom inp doc x b d ∧ valueText doc.data x = .ok (slice inp b d) ∧
      ∀ op doc', op.isSet = true → doc.edit x op = .ok doc' → ∃ new, valueText doc'.data x = .ok new ∧ doc'.write = .ok (inp.take b ++ new ++ inp.drop d) := by
  obtain ⟨k, b, d, before, old, after, h1, h2, h3, h4, h5, h6, h7, h8, h9, h10, h11⟩ := parsed_where (allows_tidied hf hc hu) h hx
  rw [body_eq hh] at h4
  have hk : k = 0 := by have := congrArg List.length h4; simp at this; omega
  subst hk
  rw [hw] at h10
  have e : before ++ (old ++ after) = slice inp 0 b ++ (slice inp b d ++ inp.drop d) := by
    rw [← List.append_assoc, ← Except.ok.inj h10, ← slice_drop, slice_append h2 h3, slice_append (Nat.zero_le _) (by omega)]
    simp [slice]
  obtain ⟨rfl, e1⟩ := h6.cut (h7.append h8) e
  obtain ⟨rfl, rfl⟩ := h7.cut h8 e1
  refine ⟨b, d, h2, h3, h5, h9, ?_⟩
  rw [show inp.take b = slice inp 0 b by simp [slice]]
  exact h11

/-- C77, for texts without brackets, which are written as they were read. -/
theorem C77_block {inp : Bytes} {doc : Document} (h : Parsed inp doc) (hh : hasHeader inp = false) (hf : followed inp = true)
    (hu : validUtf8 inp = true ∨ HASH ∉ inp) (hs : LBR ∉ inp) (hm : LCB ∉ inp) {x : Nat} (hx : Live doc x) :
    ∃ b d, b ≤ d ∧ d ≤ inp.length ∧ ReadFrom inp doc x b d ∧ valueText doc.data x = .ok (slice inp b d) ∧
      ∀ op doc', op.isSet = true → doc.edit x op = .ok doc' → ∃ new, valueText doc'.data x = .ok new ∧ doc'.write = .ok (inp.take b ++ new ++ inp.drop d) :=
  C77_exact h (C01_block_partial inp doc h hh hf hu hs hm) hh hf (.inr hs) hu hx

/-! Examples. -/

/-- The hypotheses of `C77_exact` for a text with all kinds of values. -/
example : ∃ doc x, x = b! "a: 1 # é\nb: [x, {k: 'y'}] # c\nd:\n  - e: |\n      z\nf:\ng: 2\n" ∧ Parsed x doc ∧ doc.write = .ok x ∧ hasHeader x = false ∧ followed x = true ∧
    noWsComma x = true ∧ validUtf8 x = true := by
  obtain ⟨doc, h⟩ := parsed_of_accepts (x := b! "a: 1 # é\nb: [x, {k: 'y'}] # c\nd:\n  - e: |\n      z\nf:\ng: 2\n") (by decide)
  refine ⟨doc, _, rfl, h, ?_, by decide, by decide, by decide, by decide⟩
  have h2 : rewritten (b! "a: 1 # é\nb: [x, {k: 'y'}] # c\nd:\n  - e: |\n      z\nf:\ng: 2\n") =
    .ok (b! "a: 1 # é\nb: [x, {k: 'y'}] # c\nd:\n  - e: |\n      z\nf:\ng: 2\n") := by decide +kernel
  rw [parsed_iff] at h
  unfold rewritten at h2
  rw [h] at h2
  exact h2

/-- The list, the missing value and the last value of a text, set. -/
example : ((docOfText (b! "a: [1]\nb: # c\nd: 2\n")).after 2 (.setBool true)).write = .ok (b! "a: true\nb: # c\nd: 2\n") ∧
    ((docOfText (b! "a: [1]\nb: # c\nd: 2\n")).after 6 (.setBool true)).write = .ok (b! "a: [1]\nb:true # c\nd: 2\n") ∧
    ((docOfText (b! "a: [1]\nb: # c\nd: 2\n")).after 8 (.setBool true)).write = .ok (b! "a: [1]\nb: # c\nd: true\n") := by decide +kernel

/-- The value `'x'` was read from the characters 7 to 10 of this text. -/
example : ReadFrom (b! "k: [1, 'x']") (docOfText (b! "k: [1, 'x']")) 6 7 10 := by
  refine ⟨0, .flow, 7, 10, by decide, .item (s' := .item 0 (some (b! "k"))) (y := 2) (p := 3) (.keys (l := [(b! "k", 2)]) ⟨by decide, by decide⟩ ?_) (.item (y := 6) (p := 7)
    (.brackets (l := [4, 6]) (n := 4) ⟨by decide, by decide⟩ (by decide) ⟨⟨by decide, by decide, by decide⟩, by decide, by decide⟩ ?_) .here), ?_, .inl ⟨rfl, by decide, .inl rfl⟩⟩
  · refine .head (a := 2) ?_ ⟨⟨by decide, by decide, by decide⟩, by decide, by decide⟩
    exact ⟨1, by decide, by decide, by decide, .inr ⟨by decide, by decide, by decide, by decide, ⟨by decide, by decide⟩, fun p h1 h2 => by
      have : p = 0 := by omega
      subst this
      rintro ⟨h, _⟩
      exact absurd h (by decide)⟩⟩
  · refine .tail (k := none) (b := 4) (e := 5) (last := false) (start := 6) (n' := 7) rfl ⟨⟨by decide, by decide, by decide⟩, by decide, by decide⟩
      (.scalar (a := .number (b! "1")) (by decide +kernel : asAny _ _ = _) (by decide) (by decide) (.number (by decide) (by decide)))
      ⟨5, rfl, .inl ⟨rfl, by decide, rfl, ⟨by decide, by decide, by decide⟩, by decide, by decide⟩⟩ (.head (k := none) rfl ⟨⟨by decide, by decide, by decide⟩, by decide, by decide⟩)
  · exact .scalar (a := .string (b! "x")) (by decide +kernel : asAny _ _ = _) (by decide) (by decide) (.quoted (t := quoteSingle (b! "x")) (.single _) (by decide) (by decide))

end Verif
