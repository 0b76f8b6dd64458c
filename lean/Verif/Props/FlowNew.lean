import Verif.FlowNew
import Verif.Props.Flow
/-
C92, empty inline collections: the first entry or item of an inline collection anywhere in a document is read back.
-/
namespace Verif

/-! ### The first entry -/

theorem Laid.fillEntry {inp : Bytes} {doc : Document} {t : Tree Nat} {e0 : Nat} (hl : Laid inp doc t e0) (hh : hasHeader inp = false) (hf : followed inp = true)
    (hc : noWsComma inp = true ∨ LBR ∉ inp) (hu : validUtf8 inp = true ∨ HASH ∉ inp) {x : Nat} (hx : Live doc x) {C : Coll} {tr : Bool} {w : Bytes} (hC : doc.data.mapping x = .ok C)
    (hk : C.kind = .inline tr w) (hnil : C.items = []) :
    ∃ r s b d E, b + 1 < d ∧ d ≤ inp.length ∧ valueText doc.data x = .ok (slice inp b d) ∧ ReadFrom inp doc x b d ∧
      inp.drop r = skipBlank false inp ∧ Within inp doc.data.view .block doc.root r s x b ∧ Outer inp doc.data.view .block doc.root r s x b d E ∧
      ∀ key val, keyFlow key = true → gap (val.sepText (b! " ")) = true → Token true (inp.drop (b + 1)) (val.newText 0) val.reads → (val.newText 0).headD 0 ≠ 0 →
        (∀ g, FullGap inp E g → NL ∈ slice inp d g ∨ g = inp.length) → KeysEnd inp b → (s = .flow → Apart inp b) →
        ∀ out, out = inp.take (b + 1) ++ (key ++ b! ":" ++ val.sepText (b! " ") ++ val.newText 0) ++ inp.drop (b + 1) → hasHeader out = false →
        ∃ doc', doc.edit x (.insert key val) = .ok doc' ∧ doc'.write = .ok out ∧ Stable doc' ∧ Reads doc'.data x (.map (.cons key (.scalar val.reads) .nil)) := by
  have ht := hl.laid.holds
  obtain ⟨pre, r, s, b, d, E, hu, rfl, hind, h1, h2, h3, h4, h5, h6, h7, h8⟩ := hl.fill hh hf hc hu hx (m := true) hC hk hnil
  refine ⟨r, s, b, d, E, h1, h2, h3, h4, h5, h6, h7, ?_⟩
  intro key val hkey hsep htok h0 hline hkeys hap out hout hhead
  obtain ⟨p, ha⟩ := ht.at hu
  have heq := mapInsertV_eq ha.rep key val
  simp only [Tree.id_node] at heq
  obtain ⟨i, v, d2, g1, _, _, _, g2⟩ := ht.insertNew hu key val.sep (val.scalar (.node x pre true 0 (.inline false w) .nil)) rfl
  rw [← heq] at g1
  have e1 : insertPre val.sep = val.sepText (b! " ") := by
    cases val with
    | null sep => cases sep <;> rfl
    | _ => rfl
  have e2 : (val.scalar (.node x pre true 0 (.inline false w) .nil)).write = val.newText 0 := Val.scalar_write
  have e3 : (val.scalar (.node x pre true 0 (.inline false w) .nil)).value = val.reads := Val.scalar_value
  have hrow : oneCell true ⟨.bare, key, key⟩ (insertPre val.sep) (val.scalar (.node x pre true 0 (.inline false w) .nil)).write = key ++ b! ":" ++ val.sepText (b! " ") ++ val.newText 0 := by
    rw [e1, e2]
    simp [oneCell, cellHead, RStr.write, COLON]
  have hfin := h8 ⟨doc.suffix, doc.root, d2⟩ i ⟨.bare, key, key⟩ v _ _ out rfl g2 hline hkeys hap (by rw [e1]; exact hsep)
    ⟨fun _ => ⟨rfl, hkey⟩, (fun h => by cases h), by rw [if_pos rfl, e1]; exact hsep, by rw [e2, e3]; exact htok, by rw [e2]; exact h0⟩ (by rw [hrow, hout]) hhead
  refine ⟨_, edit_insert (asMapping_of ha.rep) g1, hfin.1, hfin.2, ?_⟩
  obtain ⟨p', ha'⟩ := g2.at (Tree.find_upd hu rfl)
  have := Tree.content_reads ha'.rep
  simpa [Tree.content, Items.entriesC, Items.append, Val.scalar_value] using this

/-- C92 for the first entry: a text that is written as it was read.  `x` is an inline mapping without entries anywhere in it, at `b` to `d`.  A new entry whose key and value are written as they will be read goes
right after the bracket and is read back, and everything else is read as before, if the outermost inline collection around is at the end of a line. -/
theorem C92_fill_partial {inp : Bytes} {doc : Document} (h : Parsed inp doc) (hw : doc.write = .ok inp) (hh : hasHeader inp = false) (hf : followed inp = true)
    (hc : noWsComma inp = true ∨ LBR ∉ inp) (hu : validUtf8 inp = true ∨ HASH ∉ inp) {x : Nat} (hx : Live doc x) {C : Coll} {tr : Bool} {w : Bytes} (hC : doc.data.mapping x = .ok C)
    (hk : C.kind = .inline tr w) (hnil : C.items = []) :
    ∃ r s b d E, b + 1 < d ∧ d ≤ inp.length ∧ valueText doc.data x = .ok (slice inp b d) ∧ ReadFrom inp doc x b d ∧
      inp.drop r = skipBlank false inp ∧ Within inp doc.data.view .block doc.root r s x b ∧ Outer inp doc.data.view .block doc.root r s x b d E ∧
      ∀ key val, keyFlow key = true → gap (val.sepText (b! " ")) = true → Token true (inp.drop (b + 1)) (val.newText 0) val.reads → (val.newText 0).headD 0 ≠ 0 →
        (∀ g, FullGap inp E g → NL ∈ slice inp d g ∨ g = inp.length) → KeysEnd inp b → (s = .flow → Apart inp b) →
        ∀ out, out = inp.take (b + 1) ++ (key ++ b! ":" ++ val.sepText (b! " ") ++ val.newText 0) ++ inp.drop (b + 1) → hasHeader out = false →
        ∃ doc', doc.edit x (.insert key val) = .ok doc' ∧ doc'.write = .ok out ∧ Stable doc' ∧ Reads doc'.data x (.map (.cons key (.scalar val.reads) .nil)) := by
  obtain ⟨t, e0, hl⟩ := h.laid hw hh
  exact hl.fillEntry hh hf hc hu hx hC hk hnil

/-- C92 for values that are kept as they are, in an empty mapping `{}` that is not in an inline collection and at the end of a line. -/
theorem C92_fill_kept {inp : Bytes} {doc : Document} (h : Parsed inp doc) (hw : doc.write = .ok inp) (hh : hasHeader inp = false) (hf : followed inp = true)
    (hc : noWsComma inp = true ∨ LBR ∉ inp) (hu : validUtf8 inp = true ∨ HASH ∉ inp) {x : Nat} (hx : Live doc x) (ho : valueText doc.data x = .ok (b! "{}")) {C : Coll} {tr : Bool} {w : Bytes}
    (hC : doc.data.mapping x = .ok C) (hk : C.kind = .inline tr w) (hnil : C.items = []) :
    ∃ b, b + 2 ≤ inp.length ∧ slice inp b (b + 2) = b! "{}" ∧ ReadFrom inp doc x b (b + 2) ∧
      ∀ key val, keyFlow key = true → val.keptIn = true → LBR ∉ inp.take b → LCB ∉ inp.take b → inp[b + 2]? = some NL ∨ b + 2 = inp.length → KeysEnd inp b →
        ∀ out, out = inp.take (b + 1) ++ (key ++ b! ": " ++ val.newText 0) ++ inp.drop (b + 1) → hasHeader out = false →
        ∃ doc', doc.edit x (.insert key val) = .ok doc' ∧ doc'.write = .ok out ∧ Stable doc' := by
  obtain ⟨r, s, b, d, E, h1, h3, h4, h5, -, -, h9, hall⟩ := C92_fill_partial h hw hh hf hc hu hx hC hk hnil
  have hsl := Except.ok.inj (ho.symm.trans h4)
  obtain rfl : d = b + 2 := by
    have := slice_length (inp := inp) (a := b) h3
    rw [← hsl] at this
    simp at this; omega
  refine ⟨b, h3, hsl.symm, h5, ?_⟩
  intro key val k2 k3 k4 k5 k6 k7 out ho hh'
  obtain ⟨n1, rfl⟩ := outer_top h9 k4 k5
  have hct : isCtl ((inp.drop (b + 1)).headD 0) = true := by
    have h7 : inp[b + 1]? = some RCB := by
      have := congrArg (fun l : Bytes => l[1]?) hsl
      simp [slice, List.getElem?_drop] at this
      exact this.symm
    rw [List.headD_eq_head?_getD, List.head?_drop, h7]; decide
  obtain ⟨t1, t2⟩ := Val.keptIn_token k3 hct
  obtain ⟨doc', g1, g2, g3, -⟩ := hall key val k2 (by rw [Val.keptIn_sep k3]; decide) t1 t2 (line_after k6) k7 (fun h => absurd h n1) out (by rw [ho, Val.keptIn_sep k3]; simp) hh'
  exact ⟨doc', g1, g2, g3⟩

example : ∃ doc doc', Parsed (b! "a:\n  - {}\nb: 4\n") doc ∧ doc.edit 4 (.insert (b! "z") (.str (b! "t"))) = .ok doc' ∧ doc'.write = .ok (b! "a:\n  - {z: t}\nb: 4\n") ∧ Stable doc' := by
  have hp : Parsed (b! "a:\n  - {}\nb: 4\n") (docOfText (b! "a:\n  - {}\nb: 4\n")) := ⟨60, by decide +kernel⟩
  obtain ⟨b, h1, h2, -, h3⟩ := C92_fill_kept hp (by decide +kernel) (by decide +kernel) (by decide +kernel) (.inl (by decide)) (.inr (by decide)) (x := 4)
    (.viaSeq (x := 2) [4] (.viaMap [(b! "a", 2), (b! "b", 6)] (b! "a") .self (by decide +kernel) (by decide +kernel) (by decide)) (by decide +kernel) (by decide +kernel) (by decide))
    (by decide +kernel) (C := ⟨0, .inline false [], []⟩) (by decide +kernel) rfl rfl
  obtain rfl : b = 7 := (by decide +kernel : ∀ b ≤ 15, slice (b! "a:\n  - {}\nb: 4\n") b (b + 2) = b! "{}" → b = 7) b (by simp at h1; omega) h2
  obtain ⟨doc', g1, g2, g3⟩ := h3 (b! "z") (.str (b! "t")) (by decide +kernel) (by decide) (by decide) (by decide) (.inl (by decide))
    (.opened (by decide) (by decide) (by decide) (p := 2) (by decide) (.inl (by decide))
      (fun i h1 h2 => (by decide : ∀ i < 7, 2 < i → isIndicator ((b! "a:\n  - {}\nb: 4\n").getD i 0) = true ∨ dashes ((b! "a:\n  - {}\nb: 4\n").drop i) = true) i h2 h1))
    _ rfl (by decide +kernel)
  exact ⟨_, doc', hp, g1, g2, g3⟩

/-! ### The first item -/

theorem Laid.fillItem {inp : Bytes} {doc : Document} {t : Tree Nat} {e0 : Nat} (hl : Laid inp doc t e0) (hh : hasHeader inp = false) (hf : followed inp = true)
    (hc : noWsComma inp = true ∨ LBR ∉ inp) (hu : validUtf8 inp = true ∨ HASH ∉ inp) {x : Nat} (hx : Live doc x) {C : Coll} {tr : Bool} {w : Bytes} (hC : doc.data.sequence x = .ok C)
    (hk : C.kind = .inline tr w) (hnil : C.items = []) :
    ∃ r s b d E, b + 1 < d ∧ d ≤ inp.length ∧ valueText doc.data x = .ok (slice inp b d) ∧ ReadFrom inp doc x b d ∧
      inp.drop r = skipBlank false inp ∧ Within inp doc.data.view .block doc.root r s x b ∧ Outer inp doc.data.view .block doc.root r s x b d E ∧
      ∀ val, gap (val.sepText (b! " ")) = true → Token true (inp.drop (b + 1)) (val.newText 0) val.reads → (val.newText 0).headD 0 ≠ 0 →
        (∀ g, FullGap inp E g → NL ∈ slice inp d g ∨ g = inp.length) → KeysEnd inp b → (s = .flow → Apart inp b) →
        ∀ out, out = inp.take (b + 1) ++ (val.sepText (b! " ") ++ val.newText 0) ++ inp.drop (b + 1) → hasHeader out = false →
        ∃ doc', doc.edit x (.push val) = .ok doc' ∧ doc'.write = .ok out ∧ Stable doc' ∧ Reads doc'.data x (.seq (.cons (.scalar val.reads) .nil)) := by
  have ht := hl.laid.holds
  obtain ⟨pre, r, s, b, d, E, hu, rfl, hind, h1, h2, h3, h4, h5, h6, h7, h8⟩ := hl.fill hh hf hc hu hx (m := false) hC hk hnil
  refine ⟨r, s, b, d, E, h1, h2, h3, h4, h5, h6, h7, ?_⟩
  intro val hsep htok h0 hline hkeys hap out hout hhead
  obtain ⟨p, ha⟩ := ht.at hu
  have heq := seqPushV_eq ha.rep val
  simp only [Tree.id_node] at heq
  obtain ⟨i, v, d2, g1, _, _, _, g2⟩ := ht.push hu val.sep (val.scalar (.node x pre false 0 (.inline false w) .nil))
  rw [← heq] at g1
  have e1 : pushPre val.sep .nil = val.sepText (b! " ") := by
    cases val with
    | null sep => cases sep <;> rfl
    | _ => rfl
  have e2 : (val.scalar (.node x pre false 0 (.inline false w) .nil)).write = val.newText 0 := Val.scalar_write
  have e3 : (val.scalar (.node x pre false 0 (.inline false w) .nil)).value = val.reads := Val.scalar_value
  have hrow : oneCell false noKey (pushPre val.sep .nil) (val.scalar (.node x pre false 0 (.inline false w) .nil)).write = val.sepText (b! " ") ++ val.newText 0 := by
    rw [e1, e2]
    simp [oneCell, cellHead]
  have hfin := h8 ⟨doc.suffix, doc.root, d2⟩ i noKey v _ _ out rfl g2 hline hkeys hap (by rw [e1]; exact hsep)
    ⟨(fun h => by cases h), fun _ => rfl, rfl, by rw [e2, e3]; exact htok, by rw [e2]; exact h0⟩ (by rw [hrow, hout]) hhead
  refine ⟨_, edit_push (asSequence_of ha.rep) g1, hfin.1, hfin.2, ?_⟩
  obtain ⟨p', ha'⟩ := g2.at (Tree.find_upd hu rfl)
  have := Tree.content_reads ha'.rep
  simpa [Tree.content, Items.elemsC, Items.append, Val.scalar_value] using this

/-- C92 for the first item: likewise.  There is white space before the new value (`val.sepText`; a space unless another one is asked for). -/
theorem C92_fillAt_partial {inp : Bytes} {doc : Document} (h : Parsed inp doc) (hw : doc.write = .ok inp) (hh : hasHeader inp = false) (hf : followed inp = true)
    (hc : noWsComma inp = true ∨ LBR ∉ inp) (hu : validUtf8 inp = true ∨ HASH ∉ inp) {x : Nat} (hx : Live doc x) {C : Coll} {tr : Bool} {w : Bytes} (hC : doc.data.sequence x = .ok C)
    (hk : C.kind = .inline tr w) (hnil : C.items = []) :
    ∃ r s b d E, b + 1 < d ∧ d ≤ inp.length ∧ valueText doc.data x = .ok (slice inp b d) ∧ ReadFrom inp doc x b d ∧
      inp.drop r = skipBlank false inp ∧ Within inp doc.data.view .block doc.root r s x b ∧ Outer inp doc.data.view .block doc.root r s x b d E ∧
      ∀ val, gap (val.sepText (b! " ")) = true → Token true (inp.drop (b + 1)) (val.newText 0) val.reads → (val.newText 0).headD 0 ≠ 0 →
        (∀ g, FullGap inp E g → NL ∈ slice inp d g ∨ g = inp.length) → KeysEnd inp b → (s = .flow → Apart inp b) →
        ∀ out, out = inp.take (b + 1) ++ (val.sepText (b! " ") ++ val.newText 0) ++ inp.drop (b + 1) → hasHeader out = false →
        ∃ doc', doc.edit x (.push val) = .ok doc' ∧ doc'.write = .ok out ∧ Stable doc' ∧ Reads doc'.data x (.seq (.cons (.scalar val.reads) .nil)) := by
  obtain ⟨t, e0, hl⟩ := h.laid hw hh
  exact hl.fillItem hh hf hc hu hx hC hk hnil

/-- C92 for values that are kept as they are, in an empty list `[]` that is not in an inline collection and at the end of a line. -/
theorem C92_fillAt_kept {inp : Bytes} {doc : Document} (h : Parsed inp doc) (hw : doc.write = .ok inp) (hh : hasHeader inp = false) (hf : followed inp = true)
    (hc : noWsComma inp = true ∨ LBR ∉ inp) (hu : validUtf8 inp = true ∨ HASH ∉ inp) {x : Nat} (hx : Live doc x) (ho : valueText doc.data x = .ok (b! "[]")) {C : Coll} {tr : Bool} {w : Bytes}
    (hC : doc.data.sequence x = .ok C) (hk : C.kind = .inline tr w) (hnil : C.items = []) :
    ∃ b, b + 2 ≤ inp.length ∧ slice inp b (b + 2) = b! "[]" ∧ ReadFrom inp doc x b (b + 2) ∧
      ∀ val, val.keptIn = true → LBR ∉ inp.take b → LCB ∉ inp.take b → inp[b + 2]? = some NL ∨ b + 2 = inp.length → KeysEnd inp b →
        ∀ out, out = inp.take (b + 1) ++ (b! " " ++ val.newText 0) ++ inp.drop (b + 1) → hasHeader out = false →
        ∃ doc', doc.edit x (.push val) = .ok doc' ∧ doc'.write = .ok out ∧ Stable doc' := by
  obtain ⟨r, s, b, d, E, h1, h3, h4, h5, -, -, h9, hall⟩ := C92_fillAt_partial h hw hh hf hc hu hx hC hk hnil
  have hsl := Except.ok.inj (ho.symm.trans h4)
  obtain rfl : d = b + 2 := by
    have := slice_length (inp := inp) (a := b) h3
    rw [← hsl] at this
    simp at this; omega
  refine ⟨b, h3, hsl.symm, h5, ?_⟩
  intro val k3 k4 k5 k6 k7 out ho hh'
  obtain ⟨n1, rfl⟩ := outer_top h9 k4 k5
  have hct : isCtl ((inp.drop (b + 1)).headD 0) = true := by
    have h7 : inp[b + 1]? = some RBR := by
      have := congrArg (fun l : Bytes => l[1]?) hsl
      simp [slice, List.getElem?_drop] at this
      exact this.symm
    rw [List.headD_eq_head?_getD, List.head?_drop, h7]; decide
  obtain ⟨t1, t2⟩ := Val.keptIn_token k3 hct
  obtain ⟨doc', g1, g2, g3, -⟩ := hall val (by rw [Val.keptIn_sep k3]; decide) t1 t2 (line_after k6) k7 (fun h => absurd h n1) out (by rw [ho, Val.keptIn_sep k3]) hh'
  exact ⟨doc', g1, g2, g3⟩

example : ∃ doc doc', Parsed (b! "a: []\nb: 4\n") doc ∧ doc.edit 2 (.push (.number (b! "7") .u8)) = .ok doc' ∧ doc'.write = .ok (b! "a: [ 7]\nb: 4\n") ∧ Stable doc' := by
  have hp : Parsed (b! "a: []\nb: 4\n") (docOfText (b! "a: []\nb: 4\n")) := ⟨60, by decide +kernel⟩
  obtain ⟨b, h1, h2, -, h3⟩ := C92_fillAt_kept hp (by decide +kernel) (by decide +kernel) (by decide +kernel) (.inl (by decide)) (.inr (by decide)) (x := 2)
    (.viaMap [(b! "a", 2), (b! "b", 4)] (b! "a") .self (by decide +kernel) (by decide +kernel) (by decide)) (by decide +kernel) (C := ⟨0, .inline false [], []⟩) (by decide +kernel) rfl rfl
  obtain rfl : b = 3 := (by decide +kernel : ∀ b ≤ 11, slice (b! "a: []\nb: 4\n") b (b + 2) = b! "[]" → b = 3) b (by simp at h1; omega) h2
  obtain ⟨doc', g1, g2, g3⟩ := h3 (.number (b! "7") .u8) rfl (by decide) (by decide) (.inl (by decide))
    (.opened (by decide) (by decide) (by decide) (p := 1) (by decide) (.inr (by decide))
      (fun i h1 h2 => (by decide : ∀ i < 3, 1 < i → isIndicator ((b! "a: []\nb: 4\n").getD i 0) = true ∨ dashes ((b! "a: []\nb: 4\n").drop i) = true) i h2 h1)) _ rfl (by decide +kernel)
  exact ⟨_, doc', hp, g1, g2, g3⟩

end Verif
