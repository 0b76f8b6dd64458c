import Verif.Props.Nest
/-
C88: an entry removed from a block mapping anywhere in a document, or an item removed from a block sequence, leaves a document that is read back.  What is removed is its text and the white space
and comments before it.  Whether the rest is read as before depends on the value before it, and on what follows.
-/
namespace Verif

/-! ### What does not hold -/

/-- C88 is false: the item after the mapping becomes the value of the entry before the removed one. -/
theorem C88_missing_false : ¬ ∀ (inp : Bytes) (doc doc' : Document) (x : Nat) (key key' : Bytes) (v : Nat), Parsed inp doc → doc.write = .ok inp → Live doc x → HASH ∉ inp → doc.edit x (.remove key) = .ok doc' →
    mapGet doc'.data x key' = .ok (some v) → Stable doc' := by
  intro h
  refine unstable_length (doc := (docOfText (b! "- b:\n  c: 1\n- 2\n")).after 2 (.remove (b! "c"))) (out := b! "- b:\n- 2\n") (by decide +kernel)
    (textSeq_says (l := [.map (.cons (b! "b") (.seq (.cons (.scalar (.number (b! "2"))) .nil)) .nil)]).2 (by decide +kernel)) (L := [2, 8]) (by decide +kernel) (by decide) ?_
  exact h (b! "- b:\n  c: 1\n- 2\n") (docOfText (b! "- b:\n  c: 1\n- 2\n")) _ 2 (b! "c") (b! "b") 4 ⟨40, by decide +kernel⟩ (by decide +kernel)
    (.viaSeq [2, 8] .self (by decide +kernel) (by decide +kernel) (by decide)) (by decide) (by decide +kernel) (by decide +kernel)

/-! ### Removing an entry -/

/-- C88, what holds for entries: a text that is written as it was read, and `x` a block mapping anywhere in it, which is at `b` to `d`.  The entry that is removed is not the first one; its text, with
the white space and comments before it, is at `e` to `e'`, and the line ends there.  The next thing in the text is at `q`.  The value `w` before the removed entry must not be a block scalar
(unless it keeps no line breaks and its lines are further to the right than `q`), and when it is a collection, its items must be further to the right than `q`; it may be missing if there is a key at `q` (`f`) that is not further to the right than the mapping.  Then what is written is the text
without the entry, and it is read back. -/
theorem C88_remove_partial {inp : Bytes} {doc : Document} (h : Parsed inp doc) (hw : doc.write = .ok inp) (hh : hasHeader inp = false) (hf : followed inp = true)
    (hc : noWsComma inp = true ∨ LBR ∉ inp) (hu : validUtf8 inp = true ∨ HASH ∉ inp) {x : Nat} (hx : Live doc x) {old : Bytes} (ho : valueText doc.data x = .ok old) (hn : old.headD 0 ≠ 0)
    {C : Coll} (hC : doc.data.mapping x = .ok C) (hk : C.kind = .block) {L : List (Bytes × Nat)} (hL : mapEntries doc.data x = .ok L) {key : Bytes} {n : Nat}
    (hkey : L.findIdx? (·.1 == key) = some (n + 1)) {k' : Bytes} {w : Nat} (hbefore : L[n]? = some (k', w)) :
    ∃ b e e' d i, b < e ∧ e < e' ∧ e' ≤ d ∧ d ≤ inp.length ∧ old = slice inp b d ∧ ReadFrom inp doc x b d ∧ C.indent = columnAt inp b ∧
      C.items[n + 1]? = some i ∧ mapEntryText doc.data i = .ok (slice inp e e') ∧
      ∀ q f, FullGap inp e' q → inp[e']? = some NL → endsLine (inp.drop d) = true → KeysEnd inp e → (f = true → columnAt inp q ≤ C.indent ∧ ∃ k r, FirstKey inp k q r) →
        Closes doc.data (columnAt inp q) (inp[q]? != some DASH) f w → (∀ w', EndsWith doc.data w w' → Closes doc.data (columnAt inp q) (inp[q]? != some DASH) f w') →
        hasHeader (inp.take e ++ inp.drop e') = false →
        ∃ doc', doc.edit x (.remove key) = .ok doc' ∧ doc'.write = .ok (inp.take e ++ inp.drop e') ∧ Stable doc' ∧
          ∀ l, Reads doc.data x (.map l) → ∃ l', Reads doc'.data x (.map l') ∧ l'.list = l.list.eraseIdx (n + 1) := by
  obtain ⟨t, e0, hl⟩ := h.laid hw hh
  obtain ⟨b, e, e', d, i, h1, h2, h3, h4, h5, h6, h7, h8, h9, hall⟩ := hl.remove hh hf hc hu hx ho hn hC hk hL hkey hbefore
  refine ⟨b, e, e', d, i, h1, h2, h3, h4, h5, h6, h7, h8, h9, fun q f a1 a2 a3 a4 a5 a6 a7 a8 => ?_⟩
  obtain ⟨doc', g1, ⟨t', e1, g2⟩, g3⟩ := hall q f a1 a2 a3 a4 a5 a6 a7
  exact ⟨doc', g1, g2.write, g2.stable a8, g3⟩

/-- A scalar that is written on its line, or a collection in brackets or braces. -/
def Simple (d : Data) (w : Nat) : Prop :=
  (∀ t, valueText d w = .ok t → t ≠ [] ∧ t.headD 0 ≠ PIPE ∧ t.headD 0 ≠ GT) ∧ (∀ C, d.mapping w = .ok C → C.kind ≠ .block) ∧ (∀ C, d.sequence w = .ok C → C.kind ≠ .block)

/-- `Simple` for the documents of the examples. -/
def simpleB (d : Data) (w : Nat) : Bool :=
  (match valueText d w with | .ok t => !t.isEmpty && t.headD 0 != PIPE && t.headD 0 != GT | .error _ => true) &&
    (match d.mapping w with | .ok C => C.kind != .block | .error _ => true) && (match d.sequence w with | .ok C => C.kind != .block | .error _ => true)

theorem simpleB_simple {d : Data} {w : Nat} (h : simpleB d w = true) : Simple d w := by
  simp only [simpleB, Bool.and_eq_true] at h
  obtain ⟨⟨h1, h2⟩, h3⟩ := h
  refine ⟨fun t ht => ?_, fun C hC => ?_, fun C hC => ?_⟩
  · rw [ht] at h1
    simpa [and_assoc] using h1
  · rw [hC] at h2
    simpa using h2
  · rw [hC] at h3
    simpa using h3

theorem Simple.lastIn {d : Data} {w : Nat} (h : Simple d w) : lastIn d w = none := by
  unfold Verif.lastIn
  split
  · next C hC => rw [if_neg (h.2.1 C hC)]
  · split
    · next C hC => rw [if_neg (h.2.2 C hC)]
    · rfl

theorem Simple.closes {d : Data} {w : Nat} (h : Simple d w) (c : Nat) (m f : Bool) : Closes d c m f w :=
  ⟨fun t ht => ⟨fun he => absurd he (h.1 t ht).1, .inl (h.1 t ht).2⟩, fun C hC hk => absurd hk (h.2.1 C hC), fun C hC hk => absurd hk (h.2.2 C hC)⟩

theorem Simple.ends {d : Data} {w : Nat} (h : Simple d w) {P : Nat → Prop} : ∀ w', EndsWith d w w' → P w' := by
  intro w' hw
  cases hw with
  | last hl => rw [h.lastIn] at hl; cases hl
  | inner hl _ => rw [h.lastIn] at hl; cases hl

/-- C88 for an entry after a value that is on one line, in a text without quotes before it, or without keys after it. -/
theorem C88_remove_simple {inp : Bytes} {doc : Document} (h : Parsed inp doc) (hw : doc.write = .ok inp) (hh : hasHeader inp = false) (hf : followed inp = true)
    (hc : noWsComma inp = true ∨ LBR ∉ inp) (hu : validUtf8 inp = true ∨ HASH ∉ inp) {x : Nat} (hx : Live doc x) {old : Bytes} (ho : valueText doc.data x = .ok old) (hn : old.headD 0 ≠ 0)
    {C : Coll} (hC : doc.data.mapping x = .ok C) (hk : C.kind = .block) {L : List (Bytes × Nat)} (hL : mapEntries doc.data x = .ok L) {key : Bytes} {n : Nat}
    (hkey : L.findIdx? (·.1 == key) = some (n + 1)) {k' : Bytes} {w : Nat} (hbefore : L[n]? = some (k', w)) (hs : Simple doc.data w) :
    ∃ b e e' d i, b < e ∧ e < e' ∧ e' ≤ d ∧ d ≤ inp.length ∧ old = slice inp b d ∧ ReadFrom inp doc x b d ∧ C.items[n + 1]? = some i ∧ mapEntryText doc.data i = .ok (slice inp e e') ∧
      (inp[e']? = some NL → endsLine (inp.drop d) = true → inp[e]? = some NL ∧ DQ ∉ inp.take e ∧ SQ ∉ inp.take e ∨ COLON ∉ inp.drop e → hasHeader (inp.take e ++ inp.drop e') = false →
        ∃ doc', doc.edit x (.remove key) = .ok doc' ∧ doc'.write = .ok (inp.take e ++ inp.drop e') ∧ Stable doc') := by
  obtain ⟨b, e, e', d, i, h1, h2, h3, h4, h5, h6, h7, h8, h9, h10⟩ := C88_remove_partial h hw hh hf hc hu hx ho hn hC hk hL hkey hbefore
  refine ⟨b, e, e', d, i, h1, h2, h3, h4, h5, h6, h8, h9, ?_⟩
  intro k1 k2 k3 k4
  have hq : FullGap inp e' (wsEnd inp e') := .ws (by omega)
  have hkeys : KeysEnd inp e := by
    rcases k3 with k3 | k3
    · exact .plain k3.1 k3.2.1 k3.2.2
    · exact .noColon k3
  obtain ⟨doc', g1, g2, g3, -⟩ := h10 _ false hq k1 k2 hkeys (fun h => by cases h) (hs.closes _ _ _) hs.ends k4
  exact ⟨doc', g1, g2, g3⟩

/-- C88 for an entry of a mapping in a mapping. -/
example : ∃ doc doc', Parsed (b! "a:\n  b: 1\n  c: 2\n  e: 3\nf: 4\n") doc ∧ doc.edit 2 (.remove (b! "c")) = .ok doc' ∧ doc'.write = .ok (b! "a:\n  b: 1\n  e: 3\nf: 4\n") ∧ Stable doc' := by
  have hp : Parsed (b! "a:\n  b: 1\n  c: 2\n  e: 3\nf: 4\n") (docOfText (b! "a:\n  b: 1\n  c: 2\n  e: 3\nf: 4\n")) := ⟨60, by decide +kernel⟩
  obtain ⟨b, e, e', d, i, h1, h2, h3, h4, h5, -, h7, h8, h9⟩ := C88_remove_simple hp (by decide +kernel) (by decide +kernel) (by decide +kernel) (.inr (by decide)) (.inr (by decide)) (x := 2)
    (.viaMap [(b! "a", 2), (b! "f", 10)] (b! "a") .self (by decide +kernel) (by decide +kernel) (by decide)) (old := b! "b: 1\n  c: 2\n  e: 3") (by decide +kernel) (by decide)
    (C := ⟨2, .block, [3, 5, 7]⟩) (by decide +kernel) rfl (L := [(b! "b", 4), (b! "c", 6), (b! "e", 8)]) (by decide +kernel) (key := b! "c") (n := 0) (by decide) rfl
    (simpleB_simple (by decide +kernel))
  obtain rfl : 5 = i := Option.some.inj h7
  obtain ⟨rfl, rfl⟩ : b = 5 ∧ d = 23 :=
    (by decide +kernel : ∀ d ≤ 29, ∀ b < d, (b! "b: 1\n  c: 2\n  e: 3") = slice (b! "a:\n  b: 1\n  c: 2\n  e: 3\nf: 4\n") b d → b = 5 ∧ d = 23) d h4 b (by omega) h5
  obtain ⟨rfl, rfl⟩ : e = 9 ∧ e' = 16 :=
    (by decide +kernel : ∀ e' ≤ 23, ∀ e < e', mapEntryText (docOfText (b! "a:\n  b: 1\n  c: 2\n  e: 3\nf: 4\n")).data 5 = .ok (slice (b! "a:\n  b: 1\n  c: 2\n  e: 3\nf: 4\n") e e') → e = 9 ∧ e' = 16)
      e' h3 e h2 h8
  obtain ⟨doc', g1, g2, g3⟩ := h9 (by decide) (by decide) (.inl (by decide)) (by decide +kernel)
  exact ⟨_, doc', hp, g1, g2, g3⟩

/-- … and for an entry after a block scalar, which keeps no line breaks. -/
example : ∃ doc doc', Parsed (b! "b: |-\n  x\nc: 2\nd: 3\n") doc ∧ doc.edit 0 (.remove (b! "c")) = .ok doc' ∧ doc'.write = .ok (b! "b: |-\n  x\nd: 3\n") ∧ Stable doc' := by
  have hp : Parsed (b! "b: |-\n  x\nc: 2\nd: 3\n") (docOfText (b! "b: |-\n  x\nc: 2\nd: 3\n")) := ⟨60, by decide +kernel⟩
  obtain ⟨b, e, e', d, i, h1, h2, h3, h4, h5, -, -, h7, h8, h9⟩ := C88_remove_partial hp (by decide +kernel) (by decide +kernel) (by decide +kernel) (.inr (by decide)) (.inr (by decide)) (x := 0) .self
    (old := b! "b: |-\n  x\nc: 2\nd: 3") (by decide +kernel) (by decide)
    (C := ⟨0, .block, [1, 3, 5]⟩) (by decide +kernel) rfl (L := [(b! "b", 2), (b! "c", 4), (b! "d", 6)]) (by decide +kernel) (key := b! "c") (n := 0) (by decide) rfl
  obtain rfl : 3 = i := Option.some.inj h7
  obtain ⟨rfl, rfl⟩ : b = 0 ∧ d = 19 :=
    (by decide +kernel : ∀ d ≤ 20, ∀ b < d, (b! "b: |-\n  x\nc: 2\nd: 3") = slice (b! "b: |-\n  x\nc: 2\nd: 3\n") b d → b = 0 ∧ d = 19) d h4 b (by omega) h5
  obtain ⟨rfl, rfl⟩ : e = 9 ∧ e' = 14 :=
    (by decide +kernel : ∀ e' ≤ 19, ∀ e < e', mapEntryText (docOfText (b! "b: |-\n  x\nc: 2\nd: 3\n")).data 3 = .ok (slice (b! "b: |-\n  x\nc: 2\nd: 3\n") e e') → e = 9 ∧ e' = 14) e' h3 e h2 h8
  have hl2 : lastIn (docOfText (b! "b: |-\n  x\nc: 2\nd: 3\n")).data 2 = none := by decide +kernel
  obtain ⟨doc', g1, g2, g3, -⟩ := h9 15 false ⟨⟨by decide, by decide, by decide⟩, by decide, by decide⟩ (by decide) (by decide) (.plain (by decide) (by decide) (by decide)) (fun h => by cases h) (by
      refine ⟨fun t ht => ?_, fun C hC => ?_, fun C hC => ?_⟩
      · rw [show valueText (docOfText (b! "b: |-\n  x\nc: 2\nd: 3\n")).data 2 = .ok (b! "|-\n  x") by decide +kernel] at ht
        obtain rfl := Except.ok.inj ht
        exact ⟨fun h => (by cases h), .inr ⟨.string (b! "x"), by decide +kernel, by decide, by decide, by decide +kernel, fun v hv => by cases hv; decide⟩⟩
      · rw [show (docOfText (b! "b: |-\n  x\nc: 2\nd: 3\n")).data.mapping 2 = .error .panic by decide +kernel] at hC; cases hC
      · rw [show (docOfText (b! "b: |-\n  x\nc: 2\nd: 3\n")).data.sequence 2 = .error .panic by decide +kernel] at hC; cases hC)
    (fun w' hw' => by
      cases hw' with
      | last hl => rw [hl2] at hl; cases hl
      | inner hl => rw [hl2] at hl; cases hl) (by decide +kernel)
  exact ⟨_, doc', hp, g1, g2, g3⟩

/-- … and for the last one, after an entry without a value. -/
example : ∃ doc doc', Parsed (b! "a:\n  b:\n  c: 1\nd: 2\n") doc ∧ doc.edit 2 (.remove (b! "c")) = .ok doc' ∧ doc'.write = .ok (b! "a:\n  b:\nd: 2\n") ∧ Stable doc' := by
  have hp : Parsed (b! "a:\n  b:\n  c: 1\nd: 2\n") (docOfText (b! "a:\n  b:\n  c: 1\nd: 2\n")) := ⟨60, by decide +kernel⟩
  obtain ⟨b, e, e', d, i, h1, h2, h3, h4, h5, -, -, h7, h8, h9⟩ := C88_remove_partial hp (by decide +kernel) (by decide +kernel) (by decide +kernel) (.inr (by decide)) (.inr (by decide)) (x := 2)
    (.viaMap [(b! "a", 2), (b! "d", 8)] (b! "a") .self (by decide +kernel) (by decide +kernel) (by decide)) (old := b! "b:\n  c: 1") (by decide +kernel) (by decide)
    (C := ⟨2, .block, [3, 5]⟩) (by decide +kernel) rfl (L := [(b! "b", 4), (b! "c", 6)]) (by decide +kernel) (key := b! "c") (n := 0) (by decide) rfl
  obtain rfl : 5 = i := Option.some.inj h7
  obtain ⟨rfl, rfl⟩ : b = 5 ∧ d = 14 :=
    (by decide +kernel : ∀ d ≤ 20, ∀ b < d, (b! "b:\n  c: 1") = slice (b! "a:\n  b:\n  c: 1\nd: 2\n") b d → b = 5 ∧ d = 14) d h4 b (by omega) h5
  obtain ⟨rfl, rfl⟩ : e = 7 ∧ e' = 14 :=
    (by decide +kernel : ∀ e' ≤ 14, ∀ e < e', mapEntryText (docOfText (b! "a:\n  b:\n  c: 1\nd: 2\n")).data 5 = .ok (slice (b! "a:\n  b:\n  c: 1\nd: 2\n") e e') → e = 7 ∧ e' = 14) e' h3 e h2 h8
  obtain ⟨doc', g1, g2, g3, -⟩ := h9 15 true ⟨⟨by decide, by decide, by decide⟩, by decide, by decide⟩ (by decide) (by decide) (.plain (by decide) (by decide) (by decide))
    (fun _ => ⟨by decide, b! "d", 16, by decide, by decide, .inr ⟨by decide, by decide, by decide, by decide, ⟨by decide, by decide⟩, fun p h1 h2 h3 => by
      obtain rfl : p = 15 := by omega
      exact absurd h3.1 (by decide)⟩⟩)
    (closesB_closes (by decide +kernel)) (endsB_ends (n := 3) (by decide +kernel)) (by decide +kernel)
  exact ⟨_, doc', hp, g1, g2, g3⟩

/-! ### Removing an item -/

/-- C88, what holds for items: likewise for a block sequence. -/
theorem C88_removeAt_partial {inp : Bytes} {doc : Document} (h : Parsed inp doc) (hw : doc.write = .ok inp) (hh : hasHeader inp = false) (hf : followed inp = true)
    (hc : noWsComma inp = true ∨ LBR ∉ inp) (hu : validUtf8 inp = true ∨ HASH ∉ inp) {x : Nat} (hx : Live doc x) {old : Bytes} (ho : valueText doc.data x = .ok old) (hn : old.headD 0 ≠ 0)
    {C : Coll} (hC : doc.data.sequence x = .ok C) (hk : C.kind = .block) {L : List Nat} (hL : seqValues doc.data x = .ok L) {n : Nat} (hlen : n + 1 < C.items.length)
    {w : Nat} (hbefore : L[n]? = some w) :
    ∃ b e e' d i, b < e ∧ e < e' ∧ e' ≤ d ∧ d ≤ inp.length ∧ old = slice inp b d ∧ ReadFrom inp doc x b d ∧ C.indent = columnAt inp b ∧
      C.items[n + 1]? = some i ∧ seqEntryText doc.data true i = .ok (slice inp e e') ∧
      ∀ q f, FullGap inp e' q → inp[e']? = some NL → endsLine (inp.drop d) = true → KeysEnd inp e → (f = true → columnAt inp q ≤ C.indent ∧ ∃ k r, FirstKey inp k q r) →
        Closes doc.data (columnAt inp q) (inp[q]? != some DASH) f w → (∀ w', EndsWith doc.data w w' → Closes doc.data (columnAt inp q) (inp[q]? != some DASH) f w') →
        hasHeader (inp.take e ++ inp.drop e') = false →
        ∃ doc', doc.edit x (.removeAt (n + 1)) = .ok doc' ∧ doc'.write = .ok (inp.take e ++ inp.drop e') ∧ Stable doc' ∧
          ∀ l, Reads doc.data x (.seq l) → ∃ l', Reads doc'.data x (.seq l') ∧ l'.list = l.list.eraseIdx (n + 1) := by
  obtain ⟨t, e0, hl⟩ := h.laid hw hh
  obtain ⟨b, e, e', d, i, h1, h2, h3, h4, h5, h6, h7, h8, h9, hall⟩ := hl.removeAt hh hf hc hu hx ho hn hC hk hL hlen hbefore
  refine ⟨b, e, e', d, i, h1, h2, h3, h4, h5, h6, h7, h8, h9, fun q f a1 a2 a3 a4 a5 a6 a7 a8 => ?_⟩
  obtain ⟨doc', g1, ⟨t', e1, g2⟩, g3⟩ := hall q f a1 a2 a3 a4 a5 a6 a7
  exact ⟨doc', g1, g2.write, g2.stable a8, g3⟩

/-- C88 for an item after a value that is on one line. -/
theorem C88_removeAt_simple {inp : Bytes} {doc : Document} (h : Parsed inp doc) (hw : doc.write = .ok inp) (hh : hasHeader inp = false) (hf : followed inp = true)
    (hc : noWsComma inp = true ∨ LBR ∉ inp) (hu : validUtf8 inp = true ∨ HASH ∉ inp) {x : Nat} (hx : Live doc x) {old : Bytes} (ho : valueText doc.data x = .ok old) (hn : old.headD 0 ≠ 0)
    {C : Coll} (hC : doc.data.sequence x = .ok C) (hk : C.kind = .block) {L : List Nat} (hL : seqValues doc.data x = .ok L) {n : Nat} (hlen : n + 1 < C.items.length)
    {w : Nat} (hbefore : L[n]? = some w) (hs : Simple doc.data w) :
    ∃ b e e' d i, b < e ∧ e < e' ∧ e' ≤ d ∧ d ≤ inp.length ∧ old = slice inp b d ∧ ReadFrom inp doc x b d ∧ C.items[n + 1]? = some i ∧ seqEntryText doc.data true i = .ok (slice inp e e') ∧
      (inp[e']? = some NL → endsLine (inp.drop d) = true → inp[e]? = some NL ∧ DQ ∉ inp.take e ∧ SQ ∉ inp.take e ∨ COLON ∉ inp.drop e → hasHeader (inp.take e ++ inp.drop e') = false →
        ∃ doc', doc.edit x (.removeAt (n + 1)) = .ok doc' ∧ doc'.write = .ok (inp.take e ++ inp.drop e') ∧ Stable doc') := by
  obtain ⟨b, e, e', d, i, h1, h2, h3, h4, h5, h6, h7, h8, h9, h10⟩ := C88_removeAt_partial h hw hh hf hc hu hx ho hn hC hk hL hlen hbefore
  refine ⟨b, e, e', d, i, h1, h2, h3, h4, h5, h6, h8, h9, ?_⟩
  intro k1 k2 k3 k4
  have hq : FullGap inp e' (wsEnd inp e') := .ws (by omega)
  have hkeys : KeysEnd inp e := by
    rcases k3 with k3 | k3
    · exact .plain k3.1 k3.2.1 k3.2.2
    · exact .noColon k3
  obtain ⟨doc', g1, g2, g3, -⟩ := h10 _ false hq k1 k2 hkeys (fun h => by cases h) (hs.closes _ _ _) hs.ends k4
  exact ⟨doc', g1, g2, g3⟩

/-- C88 for the last item of a sequence in a sequence, after a mapping. -/
example : ∃ doc doc', Parsed (b! "- - 1\n  - b: 2\n  - 3\n- 4\n") doc ∧ doc.edit 2 (.removeAt 2) = .ok doc' ∧ doc'.write = .ok (b! "- - 1\n  - b: 2\n- 4\n") ∧ Stable doc' := by
  have hp : Parsed (b! "- - 1\n  - b: 2\n  - 3\n- 4\n") (docOfText (b! "- - 1\n  - b: 2\n  - 3\n- 4\n")) := ⟨60, by decide +kernel⟩
  obtain ⟨b, e, e', d, i, h1, h2, h3, h4, h5, -, -, h7, h8, h9⟩ := C88_removeAt_partial hp (by decide +kernel) (by decide +kernel) (by decide +kernel) (.inr (by decide)) (.inr (by decide)) (x := 2)
    (.viaSeq [2, 12] .self (by decide +kernel) (by decide +kernel) (by decide)) (old := b! "- 1\n  - b: 2\n  - 3") (by decide +kernel) (by decide)
    (C := ⟨2, .block, [3, 5, 9]⟩) (by decide +kernel) rfl (L := [4, 6, 10]) (by decide +kernel) (n := 1) (by decide) rfl
  obtain rfl : 9 = i := Option.some.inj h7
  obtain ⟨rfl, rfl⟩ : b = 2 ∧ d = 20 :=
    (by decide +kernel : ∀ d ≤ 25, ∀ b < d, (b! "- 1\n  - b: 2\n  - 3") = slice (b! "- - 1\n  - b: 2\n  - 3\n- 4\n") b d → b = 2 ∧ d = 20) d h4 b (by omega) h5
  obtain ⟨rfl, rfl⟩ : e = 14 ∧ e' = 20 :=
    (by decide +kernel : ∀ e' ≤ 20, ∀ e < e', seqEntryText (docOfText (b! "- - 1\n  - b: 2\n  - 3\n- 4\n")).data true 9 = .ok (slice (b! "- - 1\n  - b: 2\n  - 3\n- 4\n") e e') → e = 14 ∧ e' = 20)
      e' h3 e h2 h8
  obtain ⟨doc', g1, g2, g3, -⟩ := h9 21 false ⟨⟨by decide, by decide, by decide⟩, by decide, by decide⟩ (by decide) (by decide) (.plain (by decide) (by decide) (by decide))
    (fun h => by cases h) (closesB_closes (by decide +kernel)) (endsB_ends (n := 3) (by decide +kernel)) (by decide +kernel)
  exact ⟨_, doc', hp, g1, g2, g3⟩

end Verif
