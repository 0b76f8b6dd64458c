import Verif.Props.Series
import Verif.Props.First
/-
C89: a series of edits of which the last one removes the first entry or item of a block collection.
-/
namespace Verif

/-- C89, when the first entry of a block mapping is removed at the end: `mid` is what would be written before that, after a series of edits, and the rest is as in `C88_first_partial`. -/
theorem C89_first_partial {inp mid : Bytes} {doc doc1 : Document} (h : Parsed inp doc) (hw : doc.write = .ok inp) (hh : hasHeader inp = false) (hs : Series inp doc mid doc1)
    (hf : followed mid = true) (hc : noWsComma mid = true ∨ LBR ∉ mid) (hu : validUtf8 mid = true ∨ HASH ∉ mid) {x : Nat} (hx : Live doc1 x) {old : Bytes} (ho : valueText doc1.data x = .ok old)
    (hn : old.headD 0 ≠ 0) {C : Coll} (hC : doc1.data.mapping x = .ok C) (hk : C.kind = .block) {L : List (Bytes × Nat)} (hL : mapEntries doc1.data x = .ok L) {key : Bytes}
    (hkey : L.findIdx? (·.1 == key) = some 0) {k1 : Bytes} {w1 : Nat} (hnext : L[1]? = some (k1, w1)) :
    ∃ b e' d i, b < e' ∧ e' ≤ d ∧ d ≤ mid.length ∧ old = slice mid b d ∧ ReadFrom mid doc1 x b d ∧ C.indent = columnAt mid b ∧
      C.items[0]? = some i ∧ mapEntryText doc1.data i = .ok (slice mid b e') ∧
      ∀ q r, FullGap mid e' q → isWs (mid.getD e' 0) = true → NL ∈ slice mid e' q → endsLine (mid.drop d) = true → KeysEnd mid b → FirstKey mid k1 q r → slice mid q r = k1 →
        hasHeader (mid.take b ++ mid.drop e') = false →
        ∃ doc', doc1.edit x (.remove key) = .ok doc' ∧ doc'.write = .ok (mid.take b ++ mid.drop e') ∧ Stable doc' ∧
          ∀ l, Reads doc1.data x (.map l) → ∃ l', Reads doc'.data x (.map l') ∧ l'.list = l.list.eraseIdx 0 := by
  obtain ⟨t, e, hl⟩ := h.laid hw hh
  obtain ⟨⟨t', e', h1⟩, h2⟩ := hl.series hs hh
  exact h1.removeFirst h2 hf hc hu hx ho hn hC hk hL hkey hnext

/-- C89, when the first item of a block sequence is removed at the end: likewise. -/
theorem C89_firstAt_partial {inp mid : Bytes} {doc doc1 : Document} (h : Parsed inp doc) (hw : doc.write = .ok inp) (hh : hasHeader inp = false) (hs : Series inp doc mid doc1)
    (hf : followed mid = true) (hc : noWsComma mid = true ∨ LBR ∉ mid) (hu : validUtf8 mid = true ∨ HASH ∉ mid) {x : Nat} (hx : Live doc1 x) {old : Bytes} (ho : valueText doc1.data x = .ok old)
    (hn : old.headD 0 ≠ 0) {C : Coll} (hC : doc1.data.sequence x = .ok C) (hk : C.kind = .block) (hlen : 1 < C.items.length) :
    ∃ b e' d i, b < e' ∧ e' ≤ d ∧ d ≤ mid.length ∧ old = slice mid b d ∧ ReadFrom mid doc1 x b d ∧ C.indent = columnAt mid b ∧
      C.items[0]? = some i ∧ seqEntryText doc1.data true i = .ok (slice mid b e') ∧
      ∀ q, FullGap mid e' q → isWs (mid.getD e' 0) = true → NL ∈ slice mid e' q → endsLine (mid.drop d) = true → KeysEnd mid b → isWs (mid.getD (q + 1) 0) = true →
        hasHeader (mid.take b ++ mid.drop e') = false →
        ∃ doc', doc1.edit x (.removeAt 0) = .ok doc' ∧ doc'.write = .ok (mid.take b ++ mid.drop e') ∧ Stable doc' ∧
          ∀ l, Reads doc1.data x (.seq l) → ∃ l', Reads doc'.data x (.seq l') ∧ l'.list = l.list.eraseIdx 0 := by
  obtain ⟨t, e, hl⟩ := h.laid hw hh
  obtain ⟨⟨t', e', h1⟩, h2⟩ := hl.series hs hh
  exact h1.removeFirstAt h2 hf hc hu hx ho hn hC hk hlen

/-- The conditions of `C89_first_partial` are met: an entry is inserted, then the first one is removed. -/
example : ∃ doc doc1 doc', Parsed (b! "a: 1\nb: 2\n") doc ∧ Series (b! "a: 1\nb: 2\n") doc (b! "a: 1\nb: 2\nc: true\n") doc1 ∧ doc1.edit 0 (.remove (b! "a")) = .ok doc' ∧
    doc'.write = .ok (b! "\nb: 2\nc: true\n") ∧ Stable doc' := by
  have hp : Parsed (b! "a: 1\nb: 2\n") (docOfText (b! "a: 1\nb: 2\n")) := ⟨60, by decide +kernel⟩
  have hs : Series (b! "a: 1\nb: 2\n") (docOfText (b! "a: 1\nb: 2\n")) (b! "a: 1\nb: 2\nc: true\n") ((docOfText (b! "a: 1\nb: 2\n")).after 0 (.insert (b! "c") (.bool true))) := by
    refine .cons (mid := b! "a: 1\nb: 2\nc: true\n") (doc' := (docOfText (b! "a: 1\nb: 2\n")).after 0 (.insert (b! "c") (.bool true))) (x := 0) (op := .insert (b! "c") (.bool true))
      (old := b! "a: 1\nb: 2") (by decide) (.inr (by decide)) (.inr (by decide)) .self (by decide +kernel) (by decide) ?_ (by decide +kernel) (by decide +kernel) (by decide) .nil
    refine .insert (C := ⟨0, .block, [1, 3]⟩) false (by decide +kernel) rfl (endsB_ends (n := 4) (by decide +kernel)) (by decide +kernel) (by decide) (fun h => by cases h) (by decide) (by decide) ?_
    intro b d h
    obtain ⟨rfl, rfl⟩ : b = 0 ∧ d = 9 :=
      (by decide +kernel : ∀ d ≤ 10, ∀ b < d, (b! "a: 1\nb: 2") = slice (b! "a: 1\nb: 2\n") b d → b = 0 ∧ d = 9) d h.le b h.lt
        (Except.ok.inj ((show valueText (docOfText (b! "a: 1\nb: 2\n")).data 0 = .ok (b! "a: 1\nb: 2") by decide +kernel).symm.trans h.text))
    exact ⟨by decide, by decide, .plain (by decide) (by decide) (by decide), (Val.kept_token (v := .bool true) rfl (by decide)).1⟩
  obtain ⟨b, e', d, i, h1, h2, h3, h4, -, -, h7, h8, h9⟩ := C89_first_partial hp (by decide +kernel) (by decide +kernel) hs (by decide +kernel) (.inr (by decide)) (.inr (by decide)) (x := 0) .self
    (old := b! "a: 1\nb: 2\nc: true") (by decide +kernel) (by decide) (C := ⟨0, .block, [1, 3, 5]⟩) (by decide +kernel) rfl (L := [(b! "a", 2), (b! "b", 4), (b! "c", 6)]) (by decide +kernel) (key := b! "a")
    (by decide) rfl
  obtain rfl : 1 = i := Option.some.inj h7
  obtain ⟨rfl, rfl⟩ : b = 0 ∧ d = 17 :=
    (by decide +kernel : ∀ d ≤ 18, ∀ b < d, (b! "a: 1\nb: 2\nc: true") = slice (b! "a: 1\nb: 2\nc: true\n") b d → b = 0 ∧ d = 17) d h3 b (by omega) h4
  obtain rfl : e' = 4 :=
    (by decide +kernel : ∀ e' ≤ 17, mapEntryText ((docOfText (b! "a: 1\nb: 2\n")).after 0 (.insert (b! "c") (.bool true))).data 1 = .ok (slice (b! "a: 1\nb: 2\nc: true\n") 0 e') → e' = 4) e' h2 h8
  obtain ⟨doc', g1, g2, g3, -⟩ := h9 5 6 ⟨⟨by decide, by decide, by decide⟩, by decide, by decide⟩ (by decide) (by decide) (by decide)
    (fun c k lo q hc hg hlo _ => by
      have hle := hg.le
      omega)
    ⟨by decide, by decide, .inr ⟨by decide, by decide, by decide, by decide, ⟨by decide, by decide⟩, fun p h1 h2 h3 => by
      obtain rfl : p = 5 := by omega
      exact absurd h3.1 (by decide)⟩⟩ (by decide) (by decide +kernel)
  exact ⟨_, _, doc', hp, hs, g1, g2, g3⟩

/-- The conditions of `C89_firstAt_partial` are met: an item is pushed, then the first one is removed. -/
example : ∃ doc doc1 doc', Parsed (b! "- 1\n- 2\n") doc ∧ Series (b! "- 1\n- 2\n") doc (b! "- 1\n- 2\n- true\n") doc1 ∧ doc1.edit 0 (.removeAt 0) = .ok doc' ∧
    doc'.write = .ok (b! "\n- 2\n- true\n") ∧ Stable doc' := by
  have hp : Parsed (b! "- 1\n- 2\n") (docOfText (b! "- 1\n- 2\n")) := ⟨60, by decide +kernel⟩
  have hs : Series (b! "- 1\n- 2\n") (docOfText (b! "- 1\n- 2\n")) (b! "- 1\n- 2\n- true\n") ((docOfText (b! "- 1\n- 2\n")).after 0 (.push (.bool true))) := by
    refine .cons (mid := b! "- 1\n- 2\n- true\n") (doc' := (docOfText (b! "- 1\n- 2\n")).after 0 (.push (.bool true))) (x := 0) (op := .push (.bool true))
      (old := b! "- 1\n- 2") (by decide) (.inr (by decide)) (.inr (by decide)) .self (by decide +kernel) (by decide) ?_ (by decide +kernel) (by decide +kernel) (by decide) .nil
    refine .push (C := ⟨0, .block, [1, 3]⟩) (w := 4) (auto := b! " ") (by decide +kernel) rfl (endsB_ends (n := 4) (by decide +kernel)) (by decide +kernel) (by decide +kernel) (by decide) (by decide) ?_
    intro b d h
    obtain ⟨rfl, rfl⟩ : b = 0 ∧ d = 7 :=
      (by decide +kernel : ∀ d ≤ 8, ∀ b < d, (b! "- 1\n- 2") = slice (b! "- 1\n- 2\n") b d → b = 0 ∧ d = 7) d h.le b h.lt
        (Except.ok.inj ((show valueText (docOfText (b! "- 1\n- 2\n")).data 0 = .ok (b! "- 1\n- 2") by decide +kernel).symm.trans h.text))
    exact ⟨by decide, by decide, .plain (by decide) (by decide) (by decide), (Val.kept_token (v := .bool true) rfl (by decide)).1⟩
  obtain ⟨b, e', d, i, h1, h2, h3, h4, -, -, h7, h8, h9⟩ := C89_firstAt_partial hp (by decide +kernel) (by decide +kernel) hs (by decide +kernel) (.inr (by decide)) (.inr (by decide)) (x := 0) .self
    (old := b! "- 1\n- 2\n- true") (by decide +kernel) (by decide) (C := ⟨0, .block, [1, 3, 5]⟩) (by decide +kernel) rfl (by decide)
  obtain rfl : 1 = i := Option.some.inj h7
  obtain ⟨rfl, rfl⟩ : b = 0 ∧ d = 14 :=
    (by decide +kernel : ∀ d ≤ 15, ∀ b < d, (b! "- 1\n- 2\n- true") = slice (b! "- 1\n- 2\n- true\n") b d → b = 0 ∧ d = 14) d h3 b (by omega) h4
  obtain rfl : e' = 3 :=
    (by decide +kernel : ∀ e' ≤ 14, seqEntryText ((docOfText (b! "- 1\n- 2\n")).after 0 (.push (.bool true))).data true 1 = .ok (slice (b! "- 1\n- 2\n- true\n") 0 e') → e' = 3) e' h2 h8
  obtain ⟨doc', g1, g2, g3, -⟩ := h9 4 ⟨⟨by decide, by decide, by decide⟩, by decide, by decide⟩ (by decide) (by decide) (by decide)
    (fun c k lo q hc hg hlo _ => by
      have hle := hg.le
      omega)
    (by decide) (by decide +kernel)
  exact ⟨_, _, doc', hp, hs, g1, g2, g3⟩

end Verif
