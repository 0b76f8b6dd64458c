import Verif.Props.FlowNew
import Verif.Props.Series
/-
C89: series of edits at the end of which an inline collection gets its first entry or item.
-/
namespace Verif

/-- C89, when an inline mapping without entries gets one at the end: `mid` is what would be written before that, after a series of edits, and the rest is as in `C92_fill_partial`. -/
theorem C89_fill_partial {inp mid : Bytes} {doc doc1 : Document} (h : Parsed inp doc) (hw : doc.write = .ok inp) (hh : hasHeader inp = false) (hs : Series inp doc mid doc1) (hf : followed mid = true)
    (hc : noWsComma mid = true ∨ LBR ∉ mid) (hu : validUtf8 mid = true ∨ HASH ∉ mid) {x : Nat} (hx : Live doc1 x) {C : Coll} {tr : Bool} {w : Bytes} (hC : doc1.data.mapping x = .ok C)
    (hk : C.kind = .inline tr w) (hnil : C.items = []) :
    ∃ r s b d E, b + 1 < d ∧ d ≤ mid.length ∧ valueText doc1.data x = .ok (slice mid b d) ∧ ReadFrom mid doc1 x b d ∧
      mid.drop r = skipBlank false mid ∧ Within mid doc1.data.view .block doc1.root r s x b ∧ Outer mid doc1.data.view .block doc1.root r s x b d E ∧
      ∀ key val, keyFlow key = true → gap (val.sepText (b! " ")) = true → Token true (mid.drop (b + 1)) (val.newText 0) val.reads → (val.newText 0).headD 0 ≠ 0 →
        (∀ g, FullGap mid E g → NL ∈ slice mid d g ∨ g = mid.length) → KeysEnd mid b → (s = .flow → Apart mid b) →
        ∀ out, out = mid.take (b + 1) ++ (key ++ b! ":" ++ val.sepText (b! " ") ++ val.newText 0) ++ mid.drop (b + 1) → hasHeader out = false →
        ∃ doc1', doc1.edit x (.insert key val) = .ok doc1' ∧ doc1'.write = .ok out ∧ Stable doc1' ∧ Reads doc1'.data x (.map (.cons key (.scalar val.reads) .nil)) := by
  obtain ⟨t, e, hl⟩ := h.laid hw hh
  obtain ⟨⟨t', e', h1⟩, h2⟩ := hl.series hs hh
  exact h1.fillEntry h2 hf hc hu hx hC hk hnil

example : ∃ doc doc1 doc', Parsed (b! "a: {}\nb: 2\n") doc ∧ Series (b! "a: {}\nb: 2\n") doc (b! "a: {}\nb: 2\nc: true\n") doc1 ∧ doc1.edit 2 (.insert (b! "z") (.str (b! "t"))) = .ok doc' ∧
    doc'.write = .ok (b! "a: {z: t}\nb: 2\nc: true\n") ∧ Stable doc' := by
  have hp : Parsed (b! "a: {}\nb: 2\n") (docOfText (b! "a: {}\nb: 2\n")) := ⟨60, by decide +kernel⟩
  have hs : Series (b! "a: {}\nb: 2\n") (docOfText (b! "a: {}\nb: 2\n")) (b! "a: {}\nb: 2\nc: true\n") ((docOfText (b! "a: {}\nb: 2\n")).after 0 (.insert (b! "c") (.bool true))) := by
    refine .cons (mid := b! "a: {}\nb: 2\nc: true\n") (doc' := (docOfText (b! "a: {}\nb: 2\n")).after 0 (.insert (b! "c") (.bool true))) (x := 0) (op := .insert (b! "c") (.bool true))
      (old := b! "a: {}\nb: 2") (by decide) (.inl (by decide)) (.inr (by decide)) .self (by decide +kernel) (by decide) ?_ (by decide +kernel) (by decide +kernel) (by decide) .nil
    refine .insert (C := ⟨0, .block, [1, 3]⟩) false (by decide +kernel) rfl (endsB_ends (n := 4) (by decide +kernel)) (by decide +kernel) (by decide) (fun h => by cases h) (by decide) (by decide) ?_
    intro b d h
    obtain ⟨rfl, rfl⟩ : b = 0 ∧ d = 10 :=
      (by decide +kernel : ∀ d ≤ 11, ∀ b < d, (b! "a: {}\nb: 2") = slice (b! "a: {}\nb: 2\n") b d → b = 0 ∧ d = 10) d h.le b h.lt
        (Except.ok.inj ((show valueText (docOfText (b! "a: {}\nb: 2\n")).data 0 = .ok (b! "a: {}\nb: 2") by decide +kernel).symm.trans h.text))
    exact ⟨by decide, by decide, .plain (by decide) (by decide) (by decide), (Val.kept_token (v := .bool true) rfl (by decide)).1⟩
  obtain ⟨r, s, b, d, E, h1, h2, h3, -, -, -, h7, h8⟩ := C89_fill_partial hp (by decide +kernel) (by decide +kernel) hs (by decide +kernel) (.inl (by decide)) (.inr (by decide)) (x := 2)
    (.viaMap [(b! "a", 2), (b! "b", 4), (b! "c", 6)] (b! "a") .self (by decide +kernel) (by decide +kernel) (by decide)) (C := ⟨0, .inline false [], []⟩) (by decide +kernel) rfl rfl
  obtain ⟨rfl, rfl⟩ : b = 3 ∧ d = 5 :=
    (by decide +kernel : ∀ d ≤ 19, ∀ b < d, (b! "{}") = slice (b! "a: {}\nb: 2\nc: true\n") b d → b = 3 ∧ d = 5) d h2 b (by omega)
      (Except.ok.inj ((show valueText ((docOfText (b! "a: {}\nb: 2\n")).after 0 (.insert (b! "c") (.bool true))).data 2 = .ok (b! "{}") by decide +kernel).symm.trans h3))
  obtain ⟨n1, rfl⟩ := outer_top h7 (by decide) (by decide)
  obtain ⟨t1, t2⟩ := Val.keptIn_token (v := .str (b! "t")) (R := (b! "a: {}\nb: 2\nc: true\n").drop 4) (by decide) (by decide)
  obtain ⟨doc', g1, g2, g3, -⟩ := h8 (b! "z") (.str (b! "t")) (by decide +kernel) (by decide) t1 t2 (line_after (.inl (by decide)))
    (.opened (by decide) (by decide) (by decide) (p := 1) (by decide) (.inr (by decide))
      (fun i h1 h2 => (by decide : ∀ i < 3, 1 < i → isIndicator ((b! "a: {}\nb: 2\nc: true\n").getD i 0) = true ∨ dashes ((b! "a: {}\nb: 2\nc: true\n").drop i) = true) i h2 h1))
    (fun h => absurd h n1) _ rfl (by decide +kernel)
  exact ⟨_, _, doc', hp, hs, g1, g2, g3⟩

/-- C89, when an inline sequence without items gets one at the end: likewise. -/
theorem C89_fillAt_partial {inp mid : Bytes} {doc doc1 : Document} (h : Parsed inp doc) (hw : doc.write = .ok inp) (hh : hasHeader inp = false) (hs : Series inp doc mid doc1) (hf : followed mid = true)
    (hc : noWsComma mid = true ∨ LBR ∉ mid) (hu : validUtf8 mid = true ∨ HASH ∉ mid) {x : Nat} (hx : Live doc1 x) {C : Coll} {tr : Bool} {w : Bytes} (hC : doc1.data.sequence x = .ok C)
    (hk : C.kind = .inline tr w) (hnil : C.items = []) :
    ∃ r s b d E, b + 1 < d ∧ d ≤ mid.length ∧ valueText doc1.data x = .ok (slice mid b d) ∧ ReadFrom mid doc1 x b d ∧
      mid.drop r = skipBlank false mid ∧ Within mid doc1.data.view .block doc1.root r s x b ∧ Outer mid doc1.data.view .block doc1.root r s x b d E ∧
      ∀ val, gap (val.sepText (b! " ")) = true → Token true (mid.drop (b + 1)) (val.newText 0) val.reads → (val.newText 0).headD 0 ≠ 0 →
        (∀ g, FullGap mid E g → NL ∈ slice mid d g ∨ g = mid.length) → KeysEnd mid b → (s = .flow → Apart mid b) →
        ∀ out, out = mid.take (b + 1) ++ (val.sepText (b! " ") ++ val.newText 0) ++ mid.drop (b + 1) → hasHeader out = false →
        ∃ doc1', doc1.edit x (.push val) = .ok doc1' ∧ doc1'.write = .ok out ∧ Stable doc1' ∧ Reads doc1'.data x (.seq (.cons (.scalar val.reads) .nil)) := by
  obtain ⟨t, e, hl⟩ := h.laid hw hh
  obtain ⟨⟨t', e', h1⟩, h2⟩ := hl.series hs hh
  exact h1.fillItem h2 hf hc hu hx hC hk hnil

example : ∃ doc doc1 doc', Parsed (b! "a: []\nb: 2\n") doc ∧ Series (b! "a: []\nb: 2\n") doc (b! "a: []\nb: 2\nc: true\n") doc1 ∧ doc1.edit 2 (.push (.number (b! "7") .u8)) = .ok doc' ∧
    doc'.write = .ok (b! "a: [ 7]\nb: 2\nc: true\n") ∧ Stable doc' := by
  have hp : Parsed (b! "a: []\nb: 2\n") (docOfText (b! "a: []\nb: 2\n")) := ⟨60, by decide +kernel⟩
  have hs : Series (b! "a: []\nb: 2\n") (docOfText (b! "a: []\nb: 2\n")) (b! "a: []\nb: 2\nc: true\n") ((docOfText (b! "a: []\nb: 2\n")).after 0 (.insert (b! "c") (.bool true))) := by
    refine .cons (mid := b! "a: []\nb: 2\nc: true\n") (doc' := (docOfText (b! "a: []\nb: 2\n")).after 0 (.insert (b! "c") (.bool true))) (x := 0) (op := .insert (b! "c") (.bool true))
      (old := b! "a: []\nb: 2") (by decide) (.inl (by decide)) (.inr (by decide)) .self (by decide +kernel) (by decide) ?_ (by decide +kernel) (by decide +kernel) (by decide) .nil
    refine .insert (C := ⟨0, .block, [1, 3]⟩) false (by decide +kernel) rfl (endsB_ends (n := 4) (by decide +kernel)) (by decide +kernel) (by decide) (fun h => by cases h) (by decide) (by decide) ?_
    intro b d h
    obtain ⟨rfl, rfl⟩ : b = 0 ∧ d = 10 :=
      (by decide +kernel : ∀ d ≤ 11, ∀ b < d, (b! "a: []\nb: 2") = slice (b! "a: []\nb: 2\n") b d → b = 0 ∧ d = 10) d h.le b h.lt
        (Except.ok.inj ((show valueText (docOfText (b! "a: []\nb: 2\n")).data 0 = .ok (b! "a: []\nb: 2") by decide +kernel).symm.trans h.text))
    exact ⟨by decide, by decide, .plain (by decide) (by decide) (by decide), (Val.kept_token (v := .bool true) rfl (by decide)).1⟩
  obtain ⟨r, s, b, d, E, h1, h2, h3, -, -, -, h7, h8⟩ := C89_fillAt_partial hp (by decide +kernel) (by decide +kernel) hs (by decide +kernel) (.inl (by decide)) (.inr (by decide)) (x := 2)
    (.viaMap [(b! "a", 2), (b! "b", 4), (b! "c", 6)] (b! "a") .self (by decide +kernel) (by decide +kernel) (by decide)) (C := ⟨0, .inline false [], []⟩) (by decide +kernel) rfl rfl
  obtain ⟨rfl, rfl⟩ : b = 3 ∧ d = 5 :=
    (by decide +kernel : ∀ d ≤ 19, ∀ b < d, (b! "[]") = slice (b! "a: []\nb: 2\nc: true\n") b d → b = 3 ∧ d = 5) d h2 b (by omega)
      (Except.ok.inj ((show valueText ((docOfText (b! "a: []\nb: 2\n")).after 0 (.insert (b! "c") (.bool true))).data 2 = .ok (b! "[]") by decide +kernel).symm.trans h3))
  obtain ⟨n1, rfl⟩ := outer_top h7 (by decide) (by decide)
  obtain ⟨t1, t2⟩ := Val.keptIn_token (v := .number (b! "7") .u8) (R := (b! "a: []\nb: 2\nc: true\n").drop 4) (by decide) (by decide)
  obtain ⟨doc', g1, g2, g3, -⟩ := h8 (.number (b! "7") .u8) (by decide) t1 t2 (line_after (.inl (by decide)))
    (.opened (by decide) (by decide) (by decide) (p := 1) (by decide) (.inr (by decide))
      (fun i h1 h2 => (by decide : ∀ i < 3, 1 < i → isIndicator ((b! "a: []\nb: 2\nc: true\n").getD i 0) = true ∨ dashes ((b! "a: []\nb: 2\nc: true\n").drop i) = true) i h2 h1))
    (fun h => absurd h n1) _ rfl (by decide +kernel)
  exact ⟨_, _, doc', hp, hs, g1, g2, g3⟩

end Verif
