import Verif.Front
import Verif.Props.Unnest
/-
C88, the first item: the first entry removed from a block mapping anywhere in a document, or the first item removed from a block sequence, leaves a document that is read back.  What is removed is its text; the
white space and the comments after it stay.  The item after it is then the first one, which is read in another way than the others.
-/
namespace Verif

/-! ### What does not hold -/

/-- C88 is false for the first item of a sequence: after the first dash there must be white space, after other dashes there need not be any. -/
theorem C88_firstAt_false : ¬ ∀ (inp : Bytes) (doc doc' : Document) (x : Nat) (L : List Nat), Parsed inp doc → doc.write = .ok inp → Live doc x → HASH ∉ inp → seqValues doc.data x = .ok L → 1 < L.length →
    doc.edit x (.removeAt 0) = .ok doc' → Stable doc' := by
  intro h
  refine unstable_none (doc := (docOfText (b! "- a\n-b\n- c\n")).after 0 (.removeAt 0)) (out := b! "\n-b\n- c\n") (by decide +kernel) (by decide +kernel) ?_
  exact h (b! "- a\n-b\n- c\n") (docOfText (b! "- a\n-b\n- c\n")) _ 0 [2, 4, 6] ⟨40, by decide +kernel⟩ (by decide +kernel) .self (by decide) (by decide +kernel) (by decide) (by decide +kernel)

/-- C88 is false for the first entry of a mapping: the quote in the first key is not part of the key. -/
theorem C88_first_false : ¬ ∀ (inp : Bytes) (doc doc' : Document) (x : Nat) (key : Bytes) (L : List (Bytes × Nat)), Parsed inp doc → doc.write = .ok inp → Live doc x → HASH ∉ inp → mapEntries doc.data x = .ok L →
    L.findIdx? (·.1 == key) = some 0 → 1 < L.length → doc.edit x (.remove key) = .ok doc' → Stable doc' := by
  intro h
  refine unstable_none (doc := (docOfText (b! "a: 1\n'b: 2\n")).after 0 (.remove (b! "a"))) (out := b! "\n'b: 2\n") (by decide +kernel) (by decide +kernel) ?_
  exact h (b! "a: 1\n'b: 2\n") (docOfText (b! "a: 1\n'b: 2\n")) _ 0 (b! "a") [(b! "a", 2), (b! "'b", 4)] ⟨40, by decide +kernel⟩ (by decide +kernel) .self (by decide) (by decide +kernel) (by decide) (by decide)
    (by decide +kernel)

/-! ### Removing an entry -/

/-- The removal of the first entry in a document that lies in its text. -/
theorem Laid.removeFirst {inp : Bytes} {doc : Document} {t : Tree Nat} {e0 : Nat} (hl : Laid inp doc t e0) (hh : hasHeader inp = false) (hf : followed inp = true)
    (hc : noWsComma inp = true ∨ LBR ∉ inp) (hu : validUtf8 inp = true ∨ HASH ∉ inp) {x : Nat} (hx : Live doc x) {old : Bytes} (ho : valueText doc.data x = .ok old) (hn : old.headD 0 ≠ 0)
    {C : Coll} (hC : doc.data.mapping x = .ok C) (hk : C.kind = .block) {L : List (Bytes × Nat)} (hL : mapEntries doc.data x = .ok L) {key : Bytes}
    (hkey : L.findIdx? (·.1 == key) = some 0) {k1 : Bytes} {w1 : Nat} (hnext : L[1]? = some (k1, w1)) :
    ∃ b e' d i, b < e' ∧ e' ≤ d ∧ d ≤ inp.length ∧ old = slice inp b d ∧ ReadFrom inp doc x b d ∧ C.indent = columnAt inp b ∧
      C.items[0]? = some i ∧ mapEntryText doc.data i = .ok (slice inp b e') ∧
      ∀ q r, FullGap inp e' q → isWs (inp.getD e' 0) = true → NL ∈ slice inp e' q → endsLine (inp.drop d) = true → KeysEnd inp b → FirstKey inp k1 q r → slice inp q r = k1 →
        hasHeader (inp.take b ++ inp.drop e') = false →
        ∃ doc', doc.edit x (.remove key) = .ok doc' ∧ doc'.write = .ok (inp.take b ++ inp.drop e') ∧ Stable doc' ∧
          ∀ l, Reads doc.data x (.map l) → ∃ l', Reads doc'.data x (.map l') ∧ l'.list = l.list.eraseIdx 0 := by
  have ht := hl.laid.holds
  have hlen : 1 < C.items.length := by
    obtain ⟨pre, ind, k, items, p, hf, ha, hLi⟩ := ht.mapNode hx hL
    rw [mapping_of ha.get] at hC
    cases hC
    have := (List.getElem?_eq_some_iff.1 hnext).1
    rw [hLi, List.length_map] at this
    have e : items.ids.length = items.pairs.length := (Items.length_pairs items).symm
    show 1 < items.ids.length
    omega
  obtain ⟨pre, items, b, e', d, key1, v1, hu, hv1, h1, h2, h3, h4, h5, h6, h7, h8⟩ := hl.front hh hf hc hu hx ho hn (m := true) hC hk hlen
  obtain ⟨p, ha⟩ := ht.at hu
  have hLi : L = items.pairs.map fun q => (q.1.id, q.2.id) := by
    have := mapEntries_node ha.rep
    rw [hL] at this
    exact Except.ok.inj this
  have hi : items.indexOf key = some 0 := by rw [indexOf_findIdx, ← hLi, hkey]
  have hids : C.items = items.ids := by
    have := mapping_of ha.get
    rw [hC] at this
    rw [Except.ok.inj this]
  obtain rfl : key1.id = k1 := by
    rw [hLi, List.getElem?_map, hv1] at hnext
    cases hnext; rfl
  have hlt : 0 < items.ids.length := Items.indexOf_lt hi
  obtain ⟨ip, ikey, v, e1, e2, e3, e4⟩ := ha.rep.node.2.item .block (List.getElem?_eq_getElem hlt)
  have hnodup : v.allIds.Nodup := by
    obtain ⟨_, hv⟩ := ht.at (Tree.find_trans ht.nodup hu (Tree.find_pair ha.nodup e1))
    exact hv.nodup
  have hent : mapEntryText doc.data items.ids[0] = .ok (itemText true .block ip ikey v) := by
    simp [mapEntryText, mappingItem_of e3, pre_of e3, pre_of e4.head, e4.text hnodup, bind, Except.bind, pure,
      Except.pure, itemText, COLON]
  rw [e2] at h7
  rw [Option.some.inj h7] at hent
  refine ⟨b, e', d, _, h1, h2, h3, h4, h5, h6, by rw [hids]; exact List.getElem?_eq_getElem hlt, hent, ?_⟩
  intro q r a1 a2 a3 a4 a5 a6 a7 a8
  obtain ⟨b2, d2, items', g1, g2, g3⟩ := ht.removeKey hu key
  rw [hi] at g2
  cases g2
  obtain ⟨hwr, hst⟩ := h8 ⟨doc.suffix, doc.root, d2⟩ q rfl g3 a1 a2 a3 a4 a5 (by unfold StartsAt; exact ⟨r, a6, a7⟩) a8
  refine ⟨_, edit_remove (asMapping_of ha.rep) g1, hwr, hst, ?_⟩
  intro l hl
  obtain ⟨p', ha'⟩ := g3.at (Tree.find_upd hu rfl)
  have c1 : Content.map l = .map items.entriesC := Reads.unique hl (by have := Tree.content_reads ha.rep; exact this)
  cases c1
  exact ⟨_, (by have := Tree.content_reads ha'.rep; exact this), Items.entriesC_eraseIdx items 0⟩

/-- C88 for the first entry: a text that is written as it was read, and `x` a block mapping anywhere in it, which is at `b` to `d`.  The first entry is at `b` to `e'`.  After it there is white space, the next entry
is at `q` on a later line, and its key `k1` is read as it is also when it is the first one.  No key before the mapping goes on in it.  Then what is written is the text without the entry, and it is read back. -/
theorem C88_first_partial {inp : Bytes} {doc : Document} (h : Parsed inp doc) (hw : doc.write = .ok inp) (hh : hasHeader inp = false) (hf : followed inp = true)
    (hc : noWsComma inp = true ∨ LBR ∉ inp) (hu : validUtf8 inp = true ∨ HASH ∉ inp) {x : Nat} (hx : Live doc x) {old : Bytes} (ho : valueText doc.data x = .ok old) (hn : old.headD 0 ≠ 0)
    {C : Coll} (hC : doc.data.mapping x = .ok C) (hk : C.kind = .block) {L : List (Bytes × Nat)} (hL : mapEntries doc.data x = .ok L) {key : Bytes}
    (hkey : L.findIdx? (·.1 == key) = some 0) {k1 : Bytes} {w1 : Nat} (hnext : L[1]? = some (k1, w1)) :
    ∃ b e' d i, b < e' ∧ e' ≤ d ∧ d ≤ inp.length ∧ old = slice inp b d ∧ ReadFrom inp doc x b d ∧ C.indent = columnAt inp b ∧
      C.items[0]? = some i ∧ mapEntryText doc.data i = .ok (slice inp b e') ∧
      ∀ q r, FullGap inp e' q → isWs (inp.getD e' 0) = true → NL ∈ slice inp e' q → endsLine (inp.drop d) = true → KeysEnd inp b → FirstKey inp k1 q r → slice inp q r = k1 →
        hasHeader (inp.take b ++ inp.drop e') = false →
        ∃ doc', doc.edit x (.remove key) = .ok doc' ∧ doc'.write = .ok (inp.take b ++ inp.drop e') ∧ Stable doc' ∧
          ∀ l, Reads doc.data x (.map l) → ∃ l', Reads doc'.data x (.map l') ∧ l'.list = l.list.eraseIdx 0 := by
  obtain ⟨t, e0, hl⟩ := h.laid hw hh
  exact hl.removeFirst hh hf hc hu hx ho hn hC hk hL hkey hnext

/-- The first entry of a mapping in a sequence; there is a comment after its value. -/
example : ∃ doc doc', Parsed (b! "- a: \"1\" # x\n  b: 2\n- 3\n") doc ∧ doc.edit 2 (.remove (b! "a")) = .ok doc' ∧ doc'.write = .ok (b! "-  # x\n  b: 2\n- 3\n") ∧ Stable doc' := by
  have hp : Parsed (b! "- a: \"1\" # x\n  b: 2\n- 3\n") (docOfText (b! "- a: \"1\" # x\n  b: 2\n- 3\n")) := ⟨60, by decide +kernel⟩
  obtain ⟨b, e', d, i, h1, h2, h3, h4, -, -, h7, h8, h9⟩ := C88_first_partial hp (by decide +kernel) (by decide +kernel) (by decide +kernel) (.inr (by decide)) (.inl (by decide +kernel)) (x := 2)
    (.viaSeq [2, 8] .self (by decide +kernel) (by decide +kernel) (by decide)) (old := b! "a: \"1\" # x\n  b: 2") (by decide +kernel) (by decide)
    (C := ⟨2, .block, [3, 5]⟩) (by decide +kernel) rfl (L := [(b! "a", 4), (b! "b", 6)]) (by decide +kernel) (key := b! "a") (by decide) rfl
  obtain rfl : 3 = i := Option.some.inj h7
  obtain ⟨rfl, rfl⟩ : b = 2 ∧ d = 19 :=
    (by decide +kernel : ∀ d ≤ 24, ∀ b < d, (b! "a: \"1\" # x\n  b: 2") = slice (b! "- a: \"1\" # x\n  b: 2\n- 3\n") b d → b = 2 ∧ d = 19) d h3 b (by omega) h4
  obtain rfl : e' = 8 :=
    (by decide +kernel : ∀ e' ≤ 19, mapEntryText (docOfText (b! "- a: \"1\" # x\n  b: 2\n- 3\n")).data 3 = .ok (slice (b! "- a: \"1\" # x\n  b: 2\n- 3\n") 2 e') → e' = 8) e' h2 h8
  obtain ⟨doc', g1, g2, g3, -⟩ := h9 15 16 ⟨⟨by decide, by decide, by decide⟩, by decide, by decide⟩ (by decide) (by decide) (by decide)
    (fun c k lo q hc _ hlo _ => by
      have : ∀ c < 24, c < 2 → (b! "- a: \"1\" # x\n  b: 2\n- 3\n")[c]? ≠ some COLON := by decide
      have hl := (List.getElem?_eq_some_iff.1 hc).1
      have hle := (‹FullGap _ (c + 1) lo›).le
      exact absurd hc (this c (by simpa using hl) (by omega)))
    ⟨by decide, by decide, .inr ⟨by decide, by decide, by decide, by decide, ⟨by decide, by decide⟩, fun p h1 h2 h3 => by
      obtain rfl : p = 15 := by omega
      exact absurd h3.1 (by decide)⟩⟩ (by decide) (by decide +kernel)
  exact ⟨_, doc', hp, g1, g2, g3⟩

/-! ### Removing an item -/

/-- The removal of the first item in a document that lies in its text. -/
theorem Laid.removeFirstAt {inp : Bytes} {doc : Document} {t : Tree Nat} {e0 : Nat} (hl : Laid inp doc t e0) (hh : hasHeader inp = false) (hf : followed inp = true)
    (hc : noWsComma inp = true ∨ LBR ∉ inp) (hu : validUtf8 inp = true ∨ HASH ∉ inp) {x : Nat} (hx : Live doc x) {old : Bytes} (ho : valueText doc.data x = .ok old) (hn : old.headD 0 ≠ 0)
    {C : Coll} (hC : doc.data.sequence x = .ok C) (hk : C.kind = .block) (hlen : 1 < C.items.length) :
    ∃ b e' d i, b < e' ∧ e' ≤ d ∧ d ≤ inp.length ∧ old = slice inp b d ∧ ReadFrom inp doc x b d ∧ C.indent = columnAt inp b ∧
      C.items[0]? = some i ∧ seqEntryText doc.data true i = .ok (slice inp b e') ∧
      ∀ q, FullGap inp e' q → isWs (inp.getD e' 0) = true → NL ∈ slice inp e' q → endsLine (inp.drop d) = true → KeysEnd inp b → isWs (inp.getD (q + 1) 0) = true →
        hasHeader (inp.take b ++ inp.drop e') = false →
        ∃ doc', doc.edit x (.removeAt 0) = .ok doc' ∧ doc'.write = .ok (inp.take b ++ inp.drop e') ∧ Stable doc' ∧
          ∀ l, Reads doc.data x (.seq l) → ∃ l', Reads doc'.data x (.seq l') ∧ l'.list = l.list.eraseIdx 0 := by
  have ht := hl.laid.holds
  obtain ⟨pre, items, b, e', d, key1, v1, hu, hv1, h1, h2, h3, h4, h5, h6, h7, h8⟩ := hl.front hh hf hc hu hx ho hn (m := false) hC hk hlen
  obtain ⟨p, ha⟩ := ht.at hu
  have hids : C.items = items.ids := by
    have := sequence_of ha.get
    rw [hC] at this
    rw [Except.ok.inj this]
  have hlt : 0 < items.ids.length := by rw [← hids]; omega
  obtain ⟨ip, ikey, v, e1, e2, e3, e4⟩ := ha.rep.node.2.item .block (List.getElem?_eq_getElem hlt)
  have hnodup : v.allIds.Nodup := by
    obtain ⟨_, hv⟩ := ht.at (Tree.find_trans ht.nodup hu (Tree.find_pair ha.nodup e1))
    exact hv.nodup
  have hent : seqEntryText doc.data true items.ids[0] = .ok (itemText false .block ip ikey v) := by
    simp [seqEntryText, sequenceItem_of e3, pre_of e3, pre_of e4.head, e4.text hnodup, bind, Except.bind, pure,
      Except.pure, itemText, DASH]
  rw [e2] at h7
  rw [Option.some.inj h7] at hent
  refine ⟨b, e', d, _, h1, h2, h3, h4, h5, h6, by rw [hids]; exact List.getElem?_eq_getElem hlt, hent, ?_⟩
  intro q a1 a2 a3 a4 a5 a6 a8
  obtain ⟨d2, g1, g3⟩ := ht.removeAt hu 0
  obtain ⟨hwr, hst⟩ := h8 ⟨doc.suffix, doc.root, d2⟩ q rfl g3 a1 a2 a3 a4 a5 (by unfold StartsAt; exact a6) a8
  refine ⟨_, edit_removeAt (asSequence_of ha.rep) g1, hwr, hst, ?_⟩
  intro l hl
  obtain ⟨p', ha'⟩ := g3.at (Tree.find_upd hu rfl)
  have c1 : Content.seq l = .seq items.elemsC := Reads.unique hl (by have := Tree.content_reads ha.rep; exact this)
  cases c1
  exact ⟨_, (by have := Tree.content_reads ha'.rep; exact this), Items.elemsC_eraseIdx items 0⟩

/-- C88 for the first item: likewise for a block sequence; there is white space after the dash of the next item. -/
theorem C88_firstAt_partial {inp : Bytes} {doc : Document} (h : Parsed inp doc) (hw : doc.write = .ok inp) (hh : hasHeader inp = false) (hf : followed inp = true)
    (hc : noWsComma inp = true ∨ LBR ∉ inp) (hu : validUtf8 inp = true ∨ HASH ∉ inp) {x : Nat} (hx : Live doc x) {old : Bytes} (ho : valueText doc.data x = .ok old) (hn : old.headD 0 ≠ 0)
    {C : Coll} (hC : doc.data.sequence x = .ok C) (hk : C.kind = .block) (hlen : 1 < C.items.length) :
    ∃ b e' d i, b < e' ∧ e' ≤ d ∧ d ≤ inp.length ∧ old = slice inp b d ∧ ReadFrom inp doc x b d ∧ C.indent = columnAt inp b ∧
      C.items[0]? = some i ∧ seqEntryText doc.data true i = .ok (slice inp b e') ∧
      ∀ q, FullGap inp e' q → isWs (inp.getD e' 0) = true → NL ∈ slice inp e' q → endsLine (inp.drop d) = true → KeysEnd inp b → isWs (inp.getD (q + 1) 0) = true →
        hasHeader (inp.take b ++ inp.drop e') = false →
        ∃ doc', doc.edit x (.removeAt 0) = .ok doc' ∧ doc'.write = .ok (inp.take b ++ inp.drop e') ∧ Stable doc' ∧
          ∀ l, Reads doc.data x (.seq l) → ∃ l', Reads doc'.data x (.seq l') ∧ l'.list = l.list.eraseIdx 0 := by
  obtain ⟨t, e0, hl⟩ := h.laid hw hh
  exact hl.removeFirstAt hh hf hc hu hx ho hn hC hk hlen

/-- The first item of a sequence that is the value of a key. -/
example : ∃ doc doc', Parsed (b! "a:\n  - 1\n\n  # x\n  - c: 2\n    d: 3\nb: 4\n") doc ∧ doc.edit 2 (.removeAt 0) = .ok doc' ∧ doc'.write = .ok (b! "a:\n  \n\n  # x\n  - c: 2\n    d: 3\nb: 4\n") ∧ Stable doc' := by
  have hp : Parsed (b! "a:\n  - 1\n\n  # x\n  - c: 2\n    d: 3\nb: 4\n") (docOfText (b! "a:\n  - 1\n\n  # x\n  - c: 2\n    d: 3\nb: 4\n")) := ⟨60, by decide +kernel⟩
  obtain ⟨b, e', d, i, h1, h2, h3, h4, -, -, h7, h8, h9⟩ := C88_firstAt_partial hp (by decide +kernel) (by decide +kernel) (by decide +kernel) (.inr (by decide)) (.inl (by decide +kernel)) (x := 2)
    (.viaMap [(b! "a", 2), (b! "b", 12)] (b! "a") .self (by decide +kernel) (by decide +kernel) (by decide)) (old := b! "- 1\n\n  # x\n  - c: 2\n    d: 3") (by decide +kernel) (by decide)
    (C := ⟨2, .block, [3, 5]⟩) (by decide +kernel) rfl (by decide)
  obtain rfl : 3 = i := Option.some.inj h7
  obtain ⟨rfl, rfl⟩ : b = 5 ∧ d = 33 :=
    (by decide +kernel : ∀ d ≤ 39, ∀ b < d, (b! "- 1\n\n  # x\n  - c: 2\n    d: 3") = slice (b! "a:\n  - 1\n\n  # x\n  - c: 2\n    d: 3\nb: 4\n") b d → b = 5 ∧ d = 33) d h3 b (by omega) h4
  obtain rfl : e' = 8 :=
    (by decide +kernel : ∀ e' ≤ 33, seqEntryText (docOfText (b! "a:\n  - 1\n\n  # x\n  - c: 2\n    d: 3\nb: 4\n")).data true 3 = .ok (slice (b! "a:\n  - 1\n\n  # x\n  - c: 2\n    d: 3\nb: 4\n") 5 e') → e' = 8) e' h2 h8
  obtain ⟨doc', g1, g2, g3, -⟩ := h9 18 ⟨⟨by decide, by decide, by decide⟩, by decide, by decide⟩ (by decide) (by decide) (by decide)
    (fun c k lo q hc hg hlo _ => by
      have : ∀ c < 39, c < 5 → (b! "a:\n  - 1\n\n  # x\n  - c: 2\n    d: 3\nb: 4\n")[c]? = some COLON → c = 1 := by decide
      have hl := (List.getElem?_eq_some_iff.1 hc).1
      have hle := hg.le
      obtain rfl := this c (by simpa using hl) (by omega) hc
      have h5 : FullGap (b! "a:\n  - 1\n\n  # x\n  - c: 2\n    d: 3\nb: 4\n") (1 + 1) 5 := ⟨⟨by decide, by decide, by decide⟩, by decide, by decide⟩
      have := h5.unique hg
      omega)
    (by decide) (by decide +kernel)
  exact ⟨_, doc', hp, g1, g2, g3⟩

end Verif
