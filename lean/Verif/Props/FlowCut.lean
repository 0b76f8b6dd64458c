import Verif.FlowCutDocs
import Verif.Props.Flow
import Verif.Props.Grow
/-
C88, inline collections: an entry or item removed from an inline collection anywhere in a document leaves a document that is read back.  What is removed is its text, with the comma before it, or the one after it
when it is the first one.
-/
namespace Verif

/-! ### What does not hold -/

/-- C88 is false for inline collections: white space before the closing bracket becomes part of the string that is the last item then. -/
theorem C88_inline_space_false : ¬ ∀ (inp : Bytes) (doc doc' : Document) (x n : Nat) (L : List Nat), Parsed inp doc → doc.write = .ok inp → Live doc x → HASH ∉ inp → seqValues doc.data x = .ok L → n < L.length → 1 < L.length →
    doc.edit x (.removeAt n) = .ok doc' → Stable doc' := by
  intro h
  refine unstable_item (doc := (docOfText (b! "[a, 'b' ]\n")).after 0 (.removeAt 1)) (out := b! "[a ]\n") (by decide +kernel)
    (textSeq_says (l := [.scalar (.string (b! "a "))]).2 (by decide +kernel)) (L := [2]) (by decide +kernel) (n := 0) (a := .string (b! "a ")) (a' := .string (b! "a")) rfl rfl (by decide +kernel) (by decide) ?_
  exact h (b! "[a, 'b' ]\n") (docOfText (b! "[a, 'b' ]\n")) _ 0 1 [2, 4] ⟨40, by decide +kernel⟩ (by decide +kernel) .self (by decide) (by decide +kernel) (by decide) (by decide) (by decide +kernel)

/-- C88 is false for the only entry of an inline mapping: the comma after it stays. -/
theorem C88_inline_comma_false : ¬ ∀ (inp : Bytes) (doc doc' : Document) (x : Nat) (key : Bytes), Parsed inp doc → doc.write = .ok inp → Live doc x → HASH ∉ inp → doc.edit x (.remove key) = .ok doc' → Stable doc' := by
  intro h
  refine unstable_none (doc := (docOfText (b! "{a: 1,}\n")).after 0 (.remove (b! "a"))) (out := b! "{,}\n") (by decide +kernel) (by decide +kernel) ?_
  exact h (b! "{a: 1,}\n") (docOfText (b! "{a: 1,}\n")) _ 0 (b! "a") ⟨40, by decide +kernel⟩ (by decide +kernel) .self (by decide) (by decide +kernel)

/-! ### Removing an entry -/

/-- C88 for entries of inline mappings: a text that is written as it was read, and `x` an inline mapping anywhere in it, at `b` to `d`.  The entry with number `n` is removed; there are others after it, or a comma or
the bracket is directly after it (`Removable`).  It is not a block scalar, and the one before it is neither that nor missing.  The text `T` of the entry is removed with a comma, from `e` to `e'`, and what is
written is read back, if the outermost inline collection around is at the end of a line, what looked like a key before still does, and the mapping does not touch what is before it. -/
theorem C88_inline_partial {inp : Bytes} {doc : Document} (h : Parsed inp doc) (hw : doc.write = .ok inp) (hh : hasHeader inp = false) (hf : followed inp = true)
    (hc : noWsComma inp = true ∨ LBR ∉ inp) (hu : validUtf8 inp = true ∨ HASH ∉ inp) {x : Nat} (hx : Live doc x) {C : Coll} {tr : Bool} {w : Bytes} (hC : doc.data.mapping x = .ok C)
    (hk : C.kind = .inline tr w) {L : List (Bytes × Nat)} (hL : mapEntries doc.data x = .ok L) {key : Bytes} {n : Nat} (hkey : L.findIdx? (·.1 == key) = some n) (R : Removable n L.length tr w)
    (hz : ∀ k v, L[n]? = some (k, v) → ∃ z, valueText doc.data v = .ok z ∧ z.headD 0 ∉ [PIPE, GT])
    (hz' : ∀ k v, 0 < n → L[n - 1]? = some (k, v) → ∃ z, valueText doc.data v = .ok z ∧ z.headD 0 ∉ [PIPE, GT, 0]) :
    ∃ r s b e e' d E i T, b < e ∧ e < e' ∧ e' < d ∧ d ≤ inp.length ∧ valueText doc.data x = .ok (slice inp b d) ∧ ReadFrom inp doc x b d ∧
      C.items[n]? = some i ∧ mapEntryText doc.data i = .ok T ∧ slice inp e e' = (if 0 < n then b! "," else []) ++ T ++ (if n = 0 ∧ 1 < L.length then b! "," else []) ∧
      inp.drop r = skipBlank false inp ∧ Within inp doc.data.view .block doc.root r s x b ∧ Outer inp doc.data.view .block doc.root r s x b d E ∧
      ((∀ g, FullGap inp E g → NL ∈ slice inp d g ∨ g = inp.length) → KeysEnd inp b → (s = .flow → Apart inp b) → hasHeader (inp.take e ++ inp.drop e') = false →
        ∃ doc', doc.edit x (.remove key) = .ok doc' ∧ doc'.write = .ok (inp.take e ++ inp.drop e') ∧ Stable doc' ∧
          ∀ l, Reads doc.data x (.map l) → ∃ l', Reads doc'.data x (.map l') ∧ l'.list = l.list.eraseIdx n) := by
  obtain ⟨t, e0, hl⟩ := h.laid hw hh
  obtain ⟨r, s, b, e, e', d, E, i, T, h1, h2, h3, h4, h5, h6, h7, h8, h9, h10, h11, h12, hall⟩ := hl.removeF hh hf hc hu hx hC hk hL hkey R
    (fun v zt g1 g2 => by
      obtain ⟨⟨k, v'⟩, g3, rfl⟩ := Option.map_eq_some_iff.1 g1
      obtain ⟨z, g4, g5⟩ := hz k v' g3
      obtain rfl := Except.ok.inj (g2.symm.trans g4)
      simpa using g5)
    (fun v zt g0 g1 g2 => by
      obtain ⟨⟨k, v'⟩, g3, rfl⟩ := Option.map_eq_some_iff.1 g1
      obtain ⟨z, g4, g5⟩ := hz' k v' g0 g3
      obtain rfl := Except.ok.inj (g2.symm.trans g4)
      simpa using g5)
  refine ⟨r, s, b, e, e', d, E, i, T, h1, h2, h3, h4, h5, h6, h7, h8, h9, h10, h11, h12, fun a1 a2 a3 a4 => ?_⟩
  obtain ⟨doc', g1, ⟨t', e1, g2⟩, g3⟩ := hall a1 a2 a3
  exact ⟨doc', g1, g2.write, g2.stable a4, g3⟩

/-- C88 for inline mappings that are not in an inline collection and at the end of a line. -/
theorem C88_inline_simple {inp : Bytes} {doc : Document} (h : Parsed inp doc) (hw : doc.write = .ok inp) (hh : hasHeader inp = false) (hf : followed inp = true)
    (hc : noWsComma inp = true ∨ LBR ∉ inp) (hu : validUtf8 inp = true ∨ HASH ∉ inp) {x : Nat} (hx : Live doc x) {C : Coll} {tr : Bool} {w : Bytes} (hC : doc.data.mapping x = .ok C)
    (hk : C.kind = .inline tr w) {L : List (Bytes × Nat)} (hL : mapEntries doc.data x = .ok L) {key : Bytes} {n : Nat} (hkey : L.findIdx? (·.1 == key) = some n) (R : Removable n L.length tr w)
    (hz : ∀ k v, L[n]? = some (k, v) → ∃ z, valueText doc.data v = .ok z ∧ z.headD 0 ∉ [PIPE, GT])
    (hz' : ∀ k v, 0 < n → L[n - 1]? = some (k, v) → ∃ z, valueText doc.data v = .ok z ∧ z.headD 0 ∉ [PIPE, GT, 0]) :
    ∃ b e e' d i T, b < e ∧ e < e' ∧ e' < d ∧ d ≤ inp.length ∧ valueText doc.data x = .ok (slice inp b d) ∧ ReadFrom inp doc x b d ∧
      C.items[n]? = some i ∧ mapEntryText doc.data i = .ok T ∧ slice inp e e' = (if 0 < n then b! "," else []) ++ T ++ (if n = 0 ∧ 1 < L.length then b! "," else []) ∧
      (LBR ∉ inp.take b → LCB ∉ inp.take b → inp[d]? = some NL ∨ d = inp.length → KeysEnd inp b → hasHeader (inp.take e ++ inp.drop e') = false →
        ∃ doc', doc.edit x (.remove key) = .ok doc' ∧ doc'.write = .ok (inp.take e ++ inp.drop e') ∧ Stable doc') := by
  obtain ⟨r, s, b, e, e', d, E, i, T, h1, h2, h3, h4, h5, h6, h7, h8, h9, h10, h11, h12, hall⟩ := C88_inline_partial h hw hh hf hc hu hx hC hk hL hkey R hz hz'
  refine ⟨b, e, e', d, i, T, h1, h2, h3, h4, h5, h6, h7, h8, h9, ?_⟩
  intro k4 k5 k6 k7 k8
  obtain ⟨n1, rfl⟩ := outer_top h12 k4 k5
  obtain ⟨doc', g1, g2, g3, -⟩ := hall (line_after k6) k7 (fun h => absurd h n1) k8
  exact ⟨doc', g1, g2, g3⟩

/-- C88 for the second entry of an inline mapping in a sequence in a mapping. -/
example : ∃ doc doc', Parsed (b! "a:\n  - {x: 1, y: [2, 3], z: t}\nb: 4\n") doc ∧ doc.edit 4 (.remove (b! "y")) = .ok doc' ∧
    doc'.write = .ok (b! "a:\n  - {x: 1, z: t}\nb: 4\n") ∧ Stable doc' := by
  have hp : Parsed (b! "a:\n  - {x: 1, y: [2, 3], z: t}\nb: 4\n") (docOfText (b! "a:\n  - {x: 1, y: [2, 3], z: t}\nb: 4\n")) := ⟨90, by decide +kernel⟩
  obtain ⟨b, e, e', d, i, T, h1, h2, h3, h4, h5, -, h6, h7, h8, h9⟩ := C88_inline_simple hp (by decide +kernel) (by decide +kernel) (by decide +kernel) (.inl (by decide)) (.inr (by decide)) (x := 4)
    (.viaSeq (x := 2) [4] (.viaMap [(b! "a", 2), (b! "b", 16)] (b! "a") .self (by decide +kernel) (by decide +kernel) (by decide)) (by decide +kernel) (by decide +kernel) (by decide))
    (C := ⟨0, .inline false [], [5, 7, 13]⟩) (by decide +kernel) rfl (L := [(b! "x", 6), (b! "y", 8), (b! "z", 14)]) (by decide +kernel) (key := b! "y") (n := 1) (by decide) (.inl (by decide))
    (fun k v hv => by cases hv; exact ⟨b! "[2, 3]", by decide +kernel, by decide⟩) (fun k v _ hv => by cases hv; exact ⟨b! "1", by decide +kernel, by decide⟩)
  obtain rfl : 7 = i := Option.some.inj h6
  have h5' : (b! "{x: 1, y: [2, 3], z: t}") = slice (b! "a:\n  - {x: 1, y: [2, 3], z: t}\nb: 4\n") b d :=
    Except.ok.inj ((show valueText _ _ = .ok (b! "{x: 1, y: [2, 3], z: t}") by decide +kernel).symm.trans h5)
  obtain ⟨rfl, rfl⟩ : b = 7 ∧ d = 30 :=
    (by decide +kernel : ∀ d ≤ 36, ∀ b < d, (b! "{x: 1, y: [2, 3], z: t}") = slice (b! "a:\n  - {x: 1, y: [2, 3], z: t}\nb: 4\n") b d → b = 7 ∧ d = 30) d h4 b (by omega) h5'
  obtain rfl : (b! " y: [2, 3]") = T := Except.ok.inj ((show mapEntryText (docOfText (b! "a:\n  - {x: 1, y: [2, 3], z: t}\nb: 4\n")).data 7 = .ok (b! " y: [2, 3]") by decide +kernel).symm.trans h7)
  obtain ⟨rfl, rfl⟩ : e = 12 ∧ e' = 23 :=
    (by decide +kernel : ∀ e' < 30, ∀ e < e', slice (b! "a:\n  - {x: 1, y: [2, 3], z: t}\nb: 4\n") e e' = b! ", y: [2, 3]" → e = 12 ∧ e' = 23) e' h3 e h2 h8
  obtain ⟨doc', g1, g2, g3⟩ := h9 (by decide) (by decide) (.inl (by decide))
    (.opened (by decide) (by decide) (by decide) (p := 2) (by decide) (.inl (by decide))
      (fun i h1 h2 => (by decide : ∀ i < 7, 2 < i → isIndicator ((b! "a:\n  - {x: 1, y: [2, 3], z: t}\nb: 4\n").getD i 0) = true ∨ dashes ((b! "a:\n  - {x: 1, y: [2, 3], z: t}\nb: 4\n").drop i) = true) i h2 h1))
    (by decide +kernel)
  exact ⟨_, doc', hp, g1, g2, g3⟩

/-! ### Removing an item -/

/-- C88 for items of inline sequences: likewise. -/
theorem C88_inlineAt_partial {inp : Bytes} {doc : Document} (h : Parsed inp doc) (hw : doc.write = .ok inp) (hh : hasHeader inp = false) (hf : followed inp = true)
    (hc : noWsComma inp = true ∨ LBR ∉ inp) (hu : validUtf8 inp = true ∨ HASH ∉ inp) {x : Nat} (hx : Live doc x) {C : Coll} {tr : Bool} {w : Bytes} (hC : doc.data.sequence x = .ok C)
    (hk : C.kind = .inline tr w) {L : List Nat} (hL : seqValues doc.data x = .ok L) {n : Nat} (hn : n < L.length) (R : Removable n L.length tr w)
    (hz : ∀ v, L[n]? = some v → ∃ z, valueText doc.data v = .ok z ∧ z.headD 0 ∉ [PIPE, GT])
    (hz' : ∀ v, 0 < n → L[n - 1]? = some v → ∃ z, valueText doc.data v = .ok z ∧ z.headD 0 ∉ [PIPE, GT, 0]) :
    ∃ r s b e e' d E i T, b < e ∧ e < e' ∧ e' < d ∧ d ≤ inp.length ∧ valueText doc.data x = .ok (slice inp b d) ∧ ReadFrom inp doc x b d ∧
      C.items[n]? = some i ∧ seqEntryText doc.data false i = .ok T ∧ slice inp e e' = (if 0 < n then b! "," else []) ++ T ++ (if n = 0 ∧ 1 < L.length then b! "," else []) ∧
      inp.drop r = skipBlank false inp ∧ Within inp doc.data.view .block doc.root r s x b ∧ Outer inp doc.data.view .block doc.root r s x b d E ∧
      ((∀ g, FullGap inp E g → NL ∈ slice inp d g ∨ g = inp.length) → KeysEnd inp b → (s = .flow → Apart inp b) → hasHeader (inp.take e ++ inp.drop e') = false →
        ∃ doc', doc.edit x (.removeAt n) = .ok doc' ∧ doc'.write = .ok (inp.take e ++ inp.drop e') ∧ Stable doc' ∧
          ∀ l, Reads doc.data x (.seq l) → ∃ l', Reads doc'.data x (.seq l') ∧ l'.list = l.list.eraseIdx n) := by
  obtain ⟨t, e0, hl⟩ := h.laid hw hh
  obtain ⟨r, s, b, e, e', d, E, i, T, h1, h2, h3, h4, h5, h6, h7, h8, h9, h10, h11, h12, hall⟩ := hl.removeAtF hh hf hc hu hx hC hk hL hn R
    (fun v zt g1 g2 => by
      obtain ⟨z, g4, g5⟩ := hz v g1
      obtain rfl := Except.ok.inj (g2.symm.trans g4)
      simpa using g5)
    (fun v zt g0 g1 g2 => by
      obtain ⟨z, g4, g5⟩ := hz' v g0 g1
      obtain rfl := Except.ok.inj (g2.symm.trans g4)
      simpa using g5)
  refine ⟨r, s, b, e, e', d, E, i, T, h1, h2, h3, h4, h5, h6, h7, h8, h9, h10, h11, h12, fun a1 a2 a3 a4 => ?_⟩
  obtain ⟨doc', g1, ⟨t', e1, g2⟩, g3⟩ := hall a1 a2 a3
  exact ⟨doc', g1, g2.write, g2.stable a4, g3⟩

/-- C88 for inline sequences that are not in an inline collection and at the end of a line. -/
theorem C88_inlineAt_simple {inp : Bytes} {doc : Document} (h : Parsed inp doc) (hw : doc.write = .ok inp) (hh : hasHeader inp = false) (hf : followed inp = true)
    (hc : noWsComma inp = true ∨ LBR ∉ inp) (hu : validUtf8 inp = true ∨ HASH ∉ inp) {x : Nat} (hx : Live doc x) {C : Coll} {tr : Bool} {w : Bytes} (hC : doc.data.sequence x = .ok C)
    (hk : C.kind = .inline tr w) {L : List Nat} (hL : seqValues doc.data x = .ok L) {n : Nat} (hn : n < L.length) (R : Removable n L.length tr w)
    (hz : ∀ v, L[n]? = some v → ∃ z, valueText doc.data v = .ok z ∧ z.headD 0 ∉ [PIPE, GT])
    (hz' : ∀ v, 0 < n → L[n - 1]? = some v → ∃ z, valueText doc.data v = .ok z ∧ z.headD 0 ∉ [PIPE, GT, 0]) :
    ∃ b e e' d i T, b < e ∧ e < e' ∧ e' < d ∧ d ≤ inp.length ∧ valueText doc.data x = .ok (slice inp b d) ∧ ReadFrom inp doc x b d ∧
      C.items[n]? = some i ∧ seqEntryText doc.data false i = .ok T ∧ slice inp e e' = (if 0 < n then b! "," else []) ++ T ++ (if n = 0 ∧ 1 < L.length then b! "," else []) ∧
      (LBR ∉ inp.take b → LCB ∉ inp.take b → inp[d]? = some NL ∨ d = inp.length → KeysEnd inp b → hasHeader (inp.take e ++ inp.drop e') = false →
        ∃ doc', doc.edit x (.removeAt n) = .ok doc' ∧ doc'.write = .ok (inp.take e ++ inp.drop e') ∧ Stable doc') := by
  obtain ⟨r, s, b, e, e', d, E, i, T, h1, h2, h3, h4, h5, h6, h7, h8, h9, h10, h11, h12, hall⟩ := C88_inlineAt_partial h hw hh hf hc hu hx hC hk hL hn R hz hz'
  refine ⟨b, e, e', d, i, T, h1, h2, h3, h4, h5, h6, h7, h8, h9, ?_⟩
  intro k4 k5 k6 k7 k8
  obtain ⟨n1, rfl⟩ := outer_top h12 k4 k5
  obtain ⟨doc', g1, g2, g3, -⟩ := hall (line_after k6) k7 (fun h => absurd h n1) k8
  exact ⟨doc', g1, g2, g3⟩

/-- C88 for the last item of a list in brackets, with a comma after it. -/
example : ∃ doc doc', Parsed (b! "- [p, 'x',\n  ]\n- {}\n") doc ∧ doc.edit 2 (.removeAt 1) = .ok doc' ∧ doc'.write = .ok (b! "- [p,\n  ]\n- {}\n") ∧ Stable doc' := by
  have hp : Parsed (b! "- [p, 'x',\n  ]\n- {}\n") (docOfText (b! "- [p, 'x',\n  ]\n- {}\n")) := ⟨60, by decide +kernel⟩
  obtain ⟨b, e, e', d, i, T, h1, h2, h3, h4, h5, -, h6, h7, h8, h9⟩ := C88_inlineAt_simple hp (by decide +kernel) (by decide +kernel) (by decide +kernel) (.inl (by decide)) (.inr (by decide)) (x := 2)
    (.viaSeq (x := 0) [2, 8] .self (by decide +kernel) (by decide +kernel) (by decide))
    (C := ⟨0, .inline true (b! "\n  "), [3, 5]⟩) (by decide +kernel) rfl (L := [4, 6]) (by decide +kernel) (n := 1) (by decide) (.inr (.inl ⟨by decide, .inl rfl⟩))
    (fun v hv => by cases hv; exact ⟨b! "'x'", by decide +kernel, by decide⟩) (fun v _ hv => by cases hv; exact ⟨b! "p", by decide +kernel, by decide⟩)
  obtain rfl : 5 = i := Option.some.inj h6
  have h5' : (b! "[p, 'x',\n  ]") = slice (b! "- [p, 'x',\n  ]\n- {}\n") b d := Except.ok.inj ((show valueText _ _ = .ok (b! "[p, 'x',\n  ]") by decide +kernel).symm.trans h5)
  obtain ⟨rfl, rfl⟩ : b = 2 ∧ d = 14 :=
    (by decide +kernel : ∀ d ≤ 20, ∀ b < d, (b! "[p, 'x',\n  ]") = slice (b! "- [p, 'x',\n  ]\n- {}\n") b d → b = 2 ∧ d = 14) d h4 b (by omega) h5'
  obtain rfl : (b! " 'x'") = T := Except.ok.inj ((show seqEntryText (docOfText (b! "- [p, 'x',\n  ]\n- {}\n")).data false 5 = .ok (b! " 'x'") by decide +kernel).symm.trans h7)
  obtain ⟨rfl, rfl⟩ : e = 4 ∧ e' = 9 :=
    (by decide +kernel : ∀ e' < 14, ∀ e < e', slice (b! "- [p, 'x',\n  ]\n- {}\n") e e' = b! ", 'x'" → e = 4 ∧ e' = 9) e' h3 e h2 h8
  obtain ⟨doc', g1, g2, g3⟩ := h9 (by decide) (by decide) (.inl (by decide)) (.noColonBefore (by decide)) (by decide +kernel)
  exact ⟨_, doc', hp, g1, g2, g3⟩

/-- C88 for the only item of a list in brackets. -/
example : ∃ doc doc', Parsed (b! "[ 1 ]\n") doc ∧ doc.edit 0 (.removeAt 0) = .ok doc' ∧ doc'.write = .ok (b! "[ ]\n") ∧ Stable doc' := by
  have hp : Parsed (b! "[ 1 ]\n") (docOfText (b! "[ 1 ]\n")) := ⟨60, by decide +kernel⟩
  obtain ⟨b, e, e', d, i, T, h1, h2, h3, h4, h5, -, h6, h7, h8, h9⟩ := C88_inlineAt_simple hp (by decide +kernel) (by decide +kernel) (by decide +kernel) (.inl (by decide)) (.inr (by decide)) (x := 0) .self
    (C := ⟨0, .inline false (b! " "), [1]⟩) (by decide +kernel) rfl (L := [2]) (by decide +kernel) (n := 0) (by decide) (.inr (.inr ⟨rfl, rfl⟩))
    (fun v hv => by cases hv; exact ⟨b! "1", by decide +kernel, by decide⟩) (fun v h0 _ => absurd h0 (by decide))
  obtain rfl : 1 = i := Option.some.inj h6
  have h5' : (b! "[ 1 ]") = slice (b! "[ 1 ]\n") b d := Except.ok.inj ((show valueText _ _ = .ok (b! "[ 1 ]") by decide +kernel).symm.trans h5)
  obtain ⟨rfl, rfl⟩ : b = 0 ∧ d = 5 := (by decide +kernel : ∀ d ≤ 6, ∀ b < d, (b! "[ 1 ]") = slice (b! "[ 1 ]\n") b d → b = 0 ∧ d = 5) d h4 b (by omega) h5'
  obtain rfl : (b! " 1") = T := Except.ok.inj ((show seqEntryText (docOfText (b! "[ 1 ]\n")).data false 1 = .ok (b! " 1") by decide +kernel).symm.trans h7)
  obtain ⟨rfl, rfl⟩ : e = 1 ∧ e' = 3 := (by decide +kernel : ∀ e' < 5, ∀ e < e', slice (b! "[ 1 ]\n") e e' = b! " 1" → e = 1 ∧ e' = 3) e' h3 e h2 h8
  obtain ⟨doc', g1, g2, g3⟩ := h9 (by decide) (by decide) (.inl (by decide)) (.noColonBefore (by decide)) (by decide +kernel)
  exact ⟨_, doc', hp, g1, g2, g3⟩

end Verif
