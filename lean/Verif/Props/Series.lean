import Verif.Props.Unnest
import Verif.Props.SetRead
import Verif.Props.Flow
import Verif.FlowCutDocs
/-
C89: any number of edits anywhere in a document, and what is written at the end is read back.  Each edit has to fit in the text that would be written before it, as C79, C87, C88 and C92 say for one edit of a
document that was parsed.
-/
namespace Verif

/-- The value `x` of the document is at `b` to `d` in the text. -/
structure Stands (inp : Bytes) (doc : Document) (x b d : Nat) : Prop where
  lt : b < d
  le : d ≤ inp.length
  text : valueText doc.data x = .ok (slice inp b d)
  from_ : ReadFrom inp doc x b d

/-- The edit of the value `x` fits in the text. -/
inductive Suits (inp : Bytes) (doc : Document) (x : Nat) : Op → Prop
  /-- A value is set: see C79. -/
  | set {op : Op} : op.isSet = true →
    (∀ r s b d E doc' new a, inp.drop r = skipBlank false inp → Stands inp doc x b d → Within inp doc.data.view .block doc.root r s x b → Outer inp doc.data.view .block doc.root r s x b d E →
      doc.edit x op = .ok doc' → valueText doc'.data x = .ok new → asAny doc'.data x = .ok a → FitsIn inp s.inline b d E new a) → Suits inp doc x op
  /-- An entry with a new key is inserted in a block mapping: see C87. -/
  | insert {key : Bytes} {val : Val} {C : Coll} (f : Bool) : doc.data.mapping x = .ok C → C.kind = .block → (∀ w, EndsWith doc.data x w → Closes doc.data C.indent true f w) →
    mapGet doc.data x key = .ok none → laterKey key = true → (f = true → keyBlock key = true ∧ isWs ((val.sepText (b! " ")).headD 0) = true) → gap (val.sepText (b! " ")) = true →
    (val.newText C.indent).headD 0 ≠ 0 →
    (∀ b d, Stands inp doc x b d → d < inp.length ∧ endsLine (inp.drop d) = true ∧ KeysEnd inp d ∧ Token false (inp.drop d) (val.newText C.indent) val.reads) → Suits inp doc x (.insert key val)
  /-- An item is pushed to a block sequence: see C87. -/
  | push {val : Val} {C : Coll} {w : Nat} {auto : Bytes} : doc.data.sequence x = .ok C → C.kind = .block → (∀ w, EndsWith doc.data x w → Closes doc.data C.indent false false w) →
    lastIn doc.data x = some w → doc.data.pre w = .ok auto → gap (val.sepText auto) = true → (val.newText C.indent).headD 0 ≠ 0 →
    (∀ b d, Stands inp doc x b d → d < inp.length ∧ endsLine (inp.drop d) = true ∧ KeysEnd inp d ∧ Token false (inp.drop d) (val.newText C.indent) val.reads) → Suits inp doc x (.push val)
  /-- An entry that is not the first one is removed from a block mapping: see C88. -/
  | remove {key : Bytes} {C : Coll} {L : List (Bytes × Nat)} {n i : Nat} {k' : Bytes} {w : Nat} (f : Bool) : doc.data.mapping x = .ok C → C.kind = .block → mapEntries doc.data x = .ok L →
    L.findIdx? (·.1 == key) = some (n + 1) → L[n]? = some (k', w) → C.items[n + 1]? = some i →
    (∀ b e e' d q, Stands inp doc x b d → b < e → e < e' → e' ≤ d → mapEntryText doc.data i = .ok (slice inp e e') → FullGap inp e' q →
      inp[e']? = some NL ∧ endsLine (inp.drop d) = true ∧ KeysEnd inp e ∧ (f = true → columnAt inp q ≤ C.indent ∧ ∃ k r, FirstKey inp k q r) ∧
      Closes doc.data (columnAt inp q) (inp[q]? != some DASH) f w ∧ ∀ w', EndsWith doc.data w w' → Closes doc.data (columnAt inp q) (inp[q]? != some DASH) f w') → Suits inp doc x (.remove key)
  /-- An item that is not the first one is removed from a block sequence: see C88. -/
  | removeAt {C : Coll} {L : List Nat} {n i w : Nat} (f : Bool) : doc.data.sequence x = .ok C → C.kind = .block → seqValues doc.data x = .ok L → n + 1 < C.items.length → L[n]? = some w →
    C.items[n + 1]? = some i →
    (∀ b e e' d q, Stands inp doc x b d → b < e → e < e' → e' ≤ d → seqEntryText doc.data true i = .ok (slice inp e e') → FullGap inp e' q →
      inp[e']? = some NL ∧ endsLine (inp.drop d) = true ∧ KeysEnd inp e ∧ (f = true → columnAt inp q ≤ C.indent ∧ ∃ k r, FirstKey inp k q r) ∧
      Closes doc.data (columnAt inp q) (inp[q]? != some DASH) f w ∧ ∀ w', EndsWith doc.data w w' → Closes doc.data (columnAt inp q) (inp[q]? != some DASH) f w') →
    Suits inp doc x (.removeAt (n + 1))
  /-- An entry with a new key is inserted in an inline mapping: see C92. -/
  | insertFlow {key : Bytes} {val : Val} {C : Coll} {tr : Bool} {w : Bytes} {L : List (Bytes × Nat)} {lk : Bytes} {z : Nat} {zt : Bytes} : doc.data.mapping x = .ok C → C.kind = .inline tr w →
    mapEntries doc.data x = .ok L → L.getLast? = some (lk, z) → valueText doc.data z = .ok zt → zt.headD 0 ∉ [0, PIPE, GT] → mapGet doc.data x key = .ok none → keyFlow key = true →
    gap (val.sepText (b! " ")) = true → (val.newText 0).headD 0 ≠ 0 →
    (∀ r s b e d E, inp.drop r = skipBlank false inp → Stands inp doc x b d → Within inp doc.data.view .block doc.root r s x b → Outer inp doc.data.view .block doc.root r s x b d E → b < e → e < d →
      slice inp e d = (if tr then b! "," else []) ++ w ++ b! "}" →
      Token true (inp.drop e) (val.newText 0) val.reads ∧ (∀ g, FullGap inp E g → NL ∈ slice inp d g ∨ g = inp.length) ∧ KeysEnd inp b ∧ (s = .flow → Apart inp b)) → Suits inp doc x (.insert key val)
  /-- An item is pushed to an inline sequence: see C92. -/
  | pushFlow {val : Val} {C : Coll} {tr : Bool} {w : Bytes} {L : List Nat} {z : Nat} {zt auto : Bytes} : doc.data.sequence x = .ok C → C.kind = .inline tr w →
    seqValues doc.data x = .ok L → L.getLast? = some z → valueText doc.data z = .ok zt → zt.headD 0 ∉ [0, PIPE, GT] → doc.data.pre z = .ok auto → val.sepText auto = [] → (val.newText 0).headD 0 ≠ 0 →
    (∀ r s b e d E, inp.drop r = skipBlank false inp → Stands inp doc x b d → Within inp doc.data.view .block doc.root r s x b → Outer inp doc.data.view .block doc.root r s x b d E → b < e → e < d →
      slice inp e d = (if tr then b! "," else []) ++ w ++ b! "]" →
      Token true (inp.drop e) (val.newText 0) val.reads ∧ (∀ g, FullGap inp E g → NL ∈ slice inp d g ∨ g = inp.length) ∧ KeysEnd inp b ∧ (s = .flow → Apart inp b)) → Suits inp doc x (.push val)
  /-- An entry is removed from an inline mapping: see C88. -/
  | removeFlow {key : Bytes} {C : Coll} {tr : Bool} {w : Bytes} {L : List (Bytes × Nat)} {n : Nat} : doc.data.mapping x = .ok C → C.kind = .inline tr w → mapEntries doc.data x = .ok L → L.findIdx? (·.1 == key) = some n →
    Removable n L.length tr w → (∀ k v, L[n]? = some (k, v) → ∃ z, valueText doc.data v = .ok z ∧ z.headD 0 ∉ [PIPE, GT]) →
    (∀ k v, 0 < n → L[n - 1]? = some (k, v) → ∃ z, valueText doc.data v = .ok z ∧ z.headD 0 ∉ [PIPE, GT, 0]) →
    (∀ r s b d E, inp.drop r = skipBlank false inp → Stands inp doc x b d → Within inp doc.data.view .block doc.root r s x b → Outer inp doc.data.view .block doc.root r s x b d E →
      (∀ g, FullGap inp E g → NL ∈ slice inp d g ∨ g = inp.length) ∧ KeysEnd inp b ∧ (s = .flow → Apart inp b)) → Suits inp doc x (.remove key)
  /-- An item is removed from an inline sequence: see C88. -/
  | removeAtFlow {n : Nat} {C : Coll} {tr : Bool} {w : Bytes} {L : List Nat} : doc.data.sequence x = .ok C → C.kind = .inline tr w → seqValues doc.data x = .ok L → n < L.length →
    Removable n L.length tr w → (∀ v, L[n]? = some v → ∃ z, valueText doc.data v = .ok z ∧ z.headD 0 ∉ [PIPE, GT]) →
    (∀ v, 0 < n → L[n - 1]? = some v → ∃ z, valueText doc.data v = .ok z ∧ z.headD 0 ∉ [PIPE, GT, 0]) →
    (∀ r s b d E, inp.drop r = skipBlank false inp → Stands inp doc x b d → Within inp doc.data.view .block doc.root r s x b → Outer inp doc.data.view .block doc.root r s x b d E →
      (∀ g, FullGap inp E g → NL ∈ slice inp d g ∨ g = inp.length) ∧ KeysEnd inp b ∧ (s = .flow → Apart inp b)) → Suits inp doc x (.removeAt n)

/-- Edits one after the other, each of which fits in the text that would be written before it.  These texts must not have a header or block scalars without a body, nor commas after white space if
there are lists in brackets, and they are UTF-8 or without comments. -/
inductive Series : Bytes → Document → Bytes → Document → Prop
  | nil {inp : Bytes} {doc : Document} : Series inp doc inp doc
  | cons {inp mid out old : Bytes} {doc doc' doc'' : Document} {x : Nat} {op : Op} : followed inp = true → (noWsComma inp = true ∨ LBR ∉ inp) → (validUtf8 inp = true ∨ HASH ∉ inp) → Live doc x →
    valueText doc.data x = .ok old → old.headD 0 ≠ 0 → Suits inp doc x op → doc.edit x op = .ok doc' → doc'.write = .ok mid → hasHeader mid = false → Series mid doc' out doc'' → Series inp doc out doc''

/-- One edit. -/
theorem Laid.fits {inp : Bytes} {doc : Document} {t : Tree Nat} {e0 : Nat} (h : Laid inp doc t e0) (hh : hasHeader inp = false) (hf : followed inp = true) (hc : noWsComma inp = true ∨ LBR ∉ inp)
    (hu : validUtf8 inp = true ∨ HASH ∉ inp) {x : Nat} (hx : Live doc x) {old : Bytes} (ho : valueText doc.data x = .ok old) (hn : old.headD 0 ≠ 0) {op : Op} (hfit : Suits inp doc x op)
    {doc' : Document} (he : doc.edit x op = .ok doc') {mid : Bytes} (hw : doc'.write = .ok mid) : ∃ t' e', Laid mid doc' t' e' := by
  have key : ∀ {out : Bytes} {doc2 : Document}, doc.edit x op = .ok doc2 → (∃ t' e', Laid out doc2 t' e') → ∃ t' e', Laid mid doc' t' e' := by
    rintro out doc2 h1 ⟨t', e', h2⟩
    obtain rfl := Except.ok.inj (h1.symm.trans he)
    obtain rfl := Except.ok.inj (h2.write.symm.trans hw)
    exact ⟨t', e', h2⟩
  cases hfit with
  | set hs hall =>
    obtain ⟨r, s, b, d, E, h1, h2, h3, -, h5, h6, h7, h8, h9⟩ := h.set hh hf hc hu hx ho hn
    subst h5
    obtain ⟨u, hu⟩ := (h.laid.holds.live_iff x).1 hx
    obtain ⟨sc, -, -, -, hh2⟩ := h.laid.holds.editSet hu hs he
    obtain ⟨_, hat⟩ := hh2.at (Tree.find_upd hu rfl)
    exact key he (h9 _ _ _ _ hs he hat.text (asAny_leaf hat.rep) (hall r s b d E doc' _ _ h1 ⟨h2, h3, ho, h6⟩ h7 h8 he hat.text (asAny_leaf hat.rep)))
  | insert f hC hk hends hg hkey hfirst hsep hnul hall =>
    obtain ⟨b, d, h1, h2, h3, h4, -, h6⟩ := h.insert hh hf hc hu hx ho hn hC hk hends
    subst h3
    obtain ⟨k1, k2, k3, k4⟩ := hall b d ⟨h1, h2, ho, h4⟩
    obtain ⟨_, g1, g2, -⟩ := h6 _ _ hg hkey hfirst hsep k4 hnul k1 k2 k3 _ rfl
    exact key g1 g2
  | push hC hk hends hlast hauto hsep hnul hall =>
    obtain ⟨b, d, h1, h2, h3, h4, -, h6⟩ := h.push hh hf hc hu hx ho hn hC hk hends hlast hauto
    subst h3
    obtain ⟨k1, k2, k3, k4⟩ := hall b d ⟨h1, h2, ho, h4⟩
    obtain ⟨_, g1, g2, -⟩ := h6 _ hsep k4 hnul k1 k2 k3 _ rfl
    exact key g1 g2
  | remove f hC hk hL hkey hb hi hall =>
    obtain ⟨b, e, e', d, i, h1, h2, h3, h4, h5, h6, -, h8, h9, h10⟩ := h.remove hh hf hc hu hx ho hn hC hk hL hkey hb
    subst h5
    obtain rfl := Option.some.inj (h8.symm.trans hi)
    have hq : FullGap inp e' (wsEnd inp e') := .ws (by omega)
    obtain ⟨k1, k2, k3, k4, k5, k6⟩ := hall b e e' d _ ⟨by omega, h4, ho, h6⟩ h1 h2 h3 h9 hq
    obtain ⟨_, g1, g2, -⟩ := h10 _ f hq k1 k2 k3 k4 k5 k6
    exact key g1 g2
  | removeAt f hC hk hL hlen hb hi hall =>
    obtain ⟨b, e, e', d, i, h1, h2, h3, h4, h5, h6, -, h8, h9, h10⟩ := h.removeAt hh hf hc hu hx ho hn hC hk hL hlen hb
    subst h5
    obtain rfl := Option.some.inj (h8.symm.trans hi)
    have hq : FullGap inp e' (wsEnd inp e') := .ws (by omega)
    obtain ⟨k1, k2, k3, k4, k5, k6⟩ := hall b e e' d _ ⟨by omega, h4, ho, h6⟩ h1 h2 h3 h9 hq
    obtain ⟨_, g1, g2, -⟩ := h10 _ f hq k1 k2 k3 k4 k5 k6
    exact key g1 g2
  | insertFlow hC hk hL hz hzt h0 hg hkey hsep hnul hall =>
    simp only [List.mem_cons, List.not_mem_nil, or_false, not_or] at h0
    obtain ⟨r, s, b, e, d, E, h1, h2, h3, h4, h5, h6, h7, h8, h9, h10⟩ := h.insertFlow hh hf hc hu hx hC hk (lastFlow_map hL hz) hzt h0.1 h0.2.1 h0.2.2
    obtain ⟨k1, k2, k3, k4⟩ := hall r s b e d E h7 ⟨by omega, h3, h4, h5⟩ h8 h9 h1 h2 h6
    obtain ⟨_, g1, g2, -⟩ := h10 _ _ hg hkey hsep k1 hnul k2 k3 k4 _ rfl
    exact key g1 g2
  | pushFlow hC hk hL hz hzt h0 hauto hsep hnul hall =>
    simp only [List.mem_cons, List.not_mem_nil, or_false, not_or] at h0
    obtain ⟨r, s, b, e, d, E, h1, h2, h3, h4, h5, h6, h7, h8, h9, h10⟩ := h.pushFlow hh hf hc hu hx hC hk (lastFlow_seq hL hz) hzt h0.1 h0.2.1 h0.2.2 hauto
    obtain ⟨k1, k2, k3, k4⟩ := hall r s b e d E h7 ⟨by omega, h3, h4, h5⟩ h8 h9 h1 h2 h6
    obtain ⟨_, g1, g2, -⟩ := h10 _ hsep k1 hnul k2 k3 k4 _ rfl
    exact key g1 g2
  | removeFlow hC hk hL hkey R hz hz' hall =>
    obtain ⟨r, s, b, e, e', d, E, i, T, h1, h2, h3, h4, h5, h6, -, -, -, h10, h11, h12, h13⟩ := h.removeF hh hf hc hu hx hC hk hL hkey R
      (fun v zt g1 g2 => by
        obtain ⟨⟨k, v'⟩, g3, rfl⟩ := Option.map_eq_some_iff.1 g1
        obtain ⟨z, g4, g5⟩ := hz k v' g3
        obtain rfl := Except.ok.inj (g2.symm.trans g4)
        simpa using g5)
      (fun v zt g0 g1 g2 => by
        obtain ⟨⟨k, v'⟩, g3, rfl⟩ := Option.map_eq_some_iff.1 g1
        obtain ⟨z, g4, g5⟩ := hz' k v' g0 g3
        obtain rfl := Except.ok.inj (g2.symm.trans g4)
        simpa using g5)
    obtain ⟨k1, k2, k3⟩ := hall r s b d E h10 ⟨by omega, h4, h5, h6⟩ h11 h12
    obtain ⟨_, g1, g2, -⟩ := h13 k1 k2 k3
    exact key g1 g2
  | removeAtFlow hC hk hL hn R hz hz' hall =>
    obtain ⟨r, s, b, e, e', d, E, i, T, h1, h2, h3, h4, h5, h6, -, -, -, h10, h11, h12, h13⟩ := h.removeAtF hh hf hc hu hx hC hk hL hn R
      (fun v zt g1 g2 => by
        obtain ⟨z, g4, g5⟩ := hz v g1
        obtain rfl := Except.ok.inj (g2.symm.trans g4)
        simpa using g5)
      (fun v zt g0 g1 g2 => by
        obtain ⟨z, g4, g5⟩ := hz' v g0 g1
        obtain rfl := Except.ok.inj (g2.symm.trans g4)
        simpa using g5)
    obtain ⟨k1, k2, k3⟩ := hall r s b d E h10 ⟨by omega, h4, h5, h6⟩ h11 h12
    obtain ⟨_, g1, g2, -⟩ := h13 k1 k2 k3
    exact key g1 g2

theorem Laid.series {inp out : Bytes} {doc doc' : Document} (h : Series inp doc out doc') : ∀ {t : Tree Nat} {e : Nat}, Laid inp doc t e → hasHeader inp = false →
    (∃ t' e', Laid out doc' t' e') ∧ hasHeader out = false := by
  induction h with
  | nil => exact fun h hh => ⟨⟨_, _, h⟩, hh⟩
  | cons hf hc hu hx ho hn hfit he hw hh' _ ih =>
    intro t e h hh
    obtain ⟨t', e', h2⟩ := h.fits hh hf hc hu hx ho hn hfit he hw
    exact ih h2 hh'

/-- C89, what holds: a text that is written as it was read, and any edits one after the other that fit.  Then what is written at the end is read back. -/
theorem C89_series_partial {inp out : Bytes} {doc doc' : Document} (h : Parsed inp doc) (hw : doc.write = .ok inp) (hh : hasHeader inp = false) (hs : Series inp doc out doc') :
    doc'.write = .ok out ∧ Stable doc' := by
  obtain ⟨t, e, hl⟩ := h.laid hw hh
  obtain ⟨⟨t', e', h1⟩, h2⟩ := hl.series hs hh
  exact ⟨h1.write, h1.stable h2⟩

/-- C89 is false without conditions: each of two removals alone is read back, but not both. -/
theorem C89_both_false : ¬ ∀ (inp : Bytes) (doc doc1 doc2 doc' : Document) (x : Nat) (op1 op2 : Op), Parsed inp doc → doc.write = .ok inp → Live doc x → doc.edit x op1 = .ok doc1 → Stable doc1 →
    doc.edit x op2 = .ok doc2 → Stable doc2 → doc1.edit x op2 = .ok doc' → Stable doc' := by
  intro h
  have hp : Parsed (b! "a: 1\nb: 2\n") (docOfText (b! "a: 1\nb: 2\n")) := ⟨30, by decide +kernel⟩
  have one : ∀ {doc : Document} {out key n : Bytes} {v : Nat}, doc.write = .ok out → says out = some (.map (.cons key (.scalar (.number n)) .nil)) → IsMap doc.data doc.root [(key, v)] →
      asAny doc.data v = .ok (.number n) → Stable doc := by
    intro doc out key n v h1 h2 h3 h4
    obtain ⟨doc3, g1, g2⟩ := C57_accepts.2 (says_iff.1 h2)
    have h5 : Reads doc.data doc.root (.map (.cons key (.scalar (.number n)) .nil)) := ⟨_, h3, _, _, rfl, ⟨h4, rfl⟩, rfl⟩
    exact ⟨out, doc3, _, h1, g1, h5, g2⟩
  have hfin := h _ _ ((docOfText (b! "a: 1\nb: 2\n")).after 0 (.remove (b! "a"))) ((docOfText (b! "a: 1\nb: 2\n")).after 0 (.remove (b! "b")))
    (((docOfText (b! "a: 1\nb: 2\n")).after 0 (.remove (b! "a"))).after 0 (.remove (b! "b"))) 0 (.remove (b! "a")) (.remove (b! "b")) hp (by decide +kernel) .self (by decide +kernel)
    (one (out := b! "\nb: 2\n") (key := b! "b") (n := b! "2") (v := 4) (by decide +kernel) (by decide +kernel) (by constructor <;> decide +kernel) (by decide +kernel)) (by decide +kernel)
    (one (out := b! "a: 1\n") (key := b! "a") (n := b! "1") (v := 2) (by decide +kernel) (by decide +kernel) (by constructor <;> decide +kernel) (by decide +kernel)) (by decide +kernel)
  obtain ⟨out, doc2, c, h1, h2, h3, h4⟩ := hfin
  obtain rfl : b! "\n" = out := Except.ok.inj ((show (((docOfText (b! "a: 1\nb: 2\n")).after 0 (.remove (b! "a"))).after 0 (.remove (b! "b"))).write = .ok (b! "\n") by decide +kernel).symm.trans h1)
  obtain ⟨doc3, g1, g2⟩ := C57_accepts.2 ((says_iff (x := b! "\n") (c := .scalar (.string []))).1 (by decide +kernel))
  obtain rfl := Except.ok.inj (h2.symm.trans g1)
  obtain rfl := Reads.unique h4 g2
  exact absurd h3.1 (by decide +kernel)

/-- `Suits.set` in texts without brackets. -/
theorem Suits.setBlock {inp : Bytes} {doc : Document} {x : Nat} {op : Op} (hs : LBR ∉ inp) (hm : LCB ∉ inp) {old : Bytes} (ho : valueText doc.data x = .ok old) (hn : old.headD 0 ≠ 0)
    (hws : isWs (old.headD 0) = false) (hop : op.isSet = true)
    (hall : ∀ b d doc' new a, Stands inp doc x b d → doc.edit x op = .ok doc' → valueText doc'.data x = .ok new → asAny doc'.data x = .ok a →
      Token false (inp.drop d) new a ∧ new.headD 0 ≠ 0 ∧ endsLine (inp.drop d) = true ∧ KeysKept inp b d new) : Suits inp doc x op := by
  refine .set hop fun r s b d E doc' new a _ h2 _ h4 h5 h6 h7 => ?_
  obtain ⟨k1, k2, k3, k4⟩ := hall b d doc' new a h2 h5 h6 h7
  obtain rfl := Except.ok.inj (ho.symm.trans h2.text)
  rw [slice_headD h2.lt] at hn hws
  exact fits_block hs hm h4 h2.lt h2.le hn hws k1 k2 k3 k4

/-- The conditions of C89 are met by three edits in one document: an entry is inserted in a nested mapping, the entry before it is removed, and another value is set. -/
example : ∃ doc doc', Parsed (b! "a:\n  b: 1\n  c: 2\nd: 3\n") doc ∧ Series (b! "a:\n  b: 1\n  c: 2\nd: 3\n") doc (b! "a:\n  b: 1\n  e: true\nd: false\n") doc' ∧ Stable doc' := by
  have hp : Parsed (b! "a:\n  b: 1\n  c: 2\nd: 3\n") (docOfText (b! "a:\n  b: 1\n  c: 2\nd: 3\n")) := ⟨60, by decide +kernel⟩
  have hs : Series (b! "a:\n  b: 1\n  c: 2\nd: 3\n") (docOfText (b! "a:\n  b: 1\n  c: 2\nd: 3\n")) (b! "a:\n  b: 1\n  e: true\nd: false\n")
      ((((docOfText (b! "a:\n  b: 1\n  c: 2\nd: 3\n")).after 2 (.insert (b! "e") (.bool true))).after 2 (.remove (b! "c"))).after 8 (.setBool false)) := by
    refine .cons (mid := b! "a:\n  b: 1\n  c: 2\n  e: true\nd: 3\n") (doc' := (docOfText (b! "a:\n  b: 1\n  c: 2\nd: 3\n")).after 2 (.insert (b! "e") (.bool true))) (x := 2)
      (op := .insert (b! "e") (.bool true)) (old := b! "b: 1\n  c: 2") (by decide) (.inr (by decide)) (.inr (by decide))
      (.viaMap [(b! "a", 2), (b! "d", 8)] (b! "a") .self (by decide +kernel) (by decide +kernel) (by decide)) (by decide +kernel) (by decide) ?_ (by decide +kernel) (by decide +kernel) (by decide) ?_
    · refine .insert (C := ⟨2, .block, [3, 5]⟩) false (by decide +kernel) rfl (endsB_ends (n := 4) (by decide +kernel)) (by decide +kernel) (by decide) (fun h => by cases h) (by decide) (by decide) ?_
      intro b d h
      obtain ⟨rfl, rfl⟩ : b = 5 ∧ d = 16 :=
        (by decide +kernel : ∀ d ≤ 22, ∀ b < d, (b! "b: 1\n  c: 2") = slice (b! "a:\n  b: 1\n  c: 2\nd: 3\n") b d → b = 5 ∧ d = 16) d h.le b h.lt
          (Except.ok.inj ((show valueText (docOfText (b! "a:\n  b: 1\n  c: 2\nd: 3\n")).data 2 = .ok (b! "b: 1\n  c: 2") by decide +kernel).symm.trans h.text))
      exact ⟨by decide, by decide, .plain (by decide) (by decide) (by decide), (Val.kept_token (v := .bool true) rfl (by decide)).1⟩
    refine .cons (mid := b! "a:\n  b: 1\n  e: true\nd: 3\n") (doc' := ((docOfText (b! "a:\n  b: 1\n  c: 2\nd: 3\n")).after 2 (.insert (b! "e") (.bool true))).after 2 (.remove (b! "c"))) (x := 2)
      (op := .remove (b! "c")) (old := b! "b: 1\n  c: 2\n  e: true") (by decide) (.inr (by decide)) (.inr (by decide))
      (.viaMap [(b! "a", 2), (b! "d", 8)] (b! "a") .self (by decide +kernel) (by decide +kernel) (by decide)) (by decide +kernel) (by decide) ?_ (by decide +kernel) (by decide +kernel) (by decide) ?_
    · refine .remove (C := ⟨2, .block, [3, 5, 9]⟩) (L := [(b! "b", 4), (b! "c", 6), (b! "e", 10)]) (n := 0) (i := 5) (k' := b! "b") (w := 4) false (by decide +kernel) rfl (by decide +kernel) (by decide) rfl rfl ?_
      intro b e e' d q h h1 h2 h3 h4 h5
      obtain ⟨rfl, rfl⟩ : b = 5 ∧ d = 26 :=
        (by decide +kernel : ∀ d ≤ 32, ∀ b < d, (b! "b: 1\n  c: 2\n  e: true") = slice (b! "a:\n  b: 1\n  c: 2\n  e: true\nd: 3\n") b d → b = 5 ∧ d = 26) d h.le b h.lt
          (Except.ok.inj ((show valueText ((docOfText (b! "a:\n  b: 1\n  c: 2\nd: 3\n")).after 2 (.insert (b! "e") (.bool true))).data 2 = .ok (b! "b: 1\n  c: 2\n  e: true") by decide +kernel).symm.trans
            h.text))
      obtain ⟨rfl, rfl⟩ : e = 9 ∧ e' = 16 :=
        (by decide +kernel : ∀ e' ≤ 26, ∀ e < e', mapEntryText ((docOfText (b! "a:\n  b: 1\n  c: 2\nd: 3\n")).after 2 (.insert (b! "e") (.bool true))).data 5 =
          .ok (slice (b! "a:\n  b: 1\n  c: 2\n  e: true\nd: 3\n") e e') → e = 9 ∧ e' = 16) e' h3 e h2 h4
      have hw : Simple ((docOfText (b! "a:\n  b: 1\n  c: 2\nd: 3\n")).after 2 (.insert (b! "e") (.bool true))).data 4 := simpleB_simple (by decide +kernel)
      exact ⟨by decide, by decide, .plain (by decide) (by decide) (by decide), fun h => (by cases h), hw.closes _ _ _, fun w' hw' => by
        cases hw' with
        | last hl => rw [hw.lastIn] at hl; cases hl
        | inner hl _ => rw [hw.lastIn] at hl; cases hl⟩
    refine .cons (mid := b! "a:\n  b: 1\n  e: true\nd: false\n") (x := 8) (op := .setBool false) (old := b! "3") (by decide) (.inr (by decide)) (.inr (by decide))
      (.viaMap [(b! "a", 2), (b! "d", 8)] (b! "d") .self (by decide +kernel) (by decide +kernel) (by decide)) (by decide +kernel) (by decide) ?_ (by decide +kernel) (by decide +kernel) (by decide) .nil
    refine .setBlock (by decide) (by decide) (old := b! "3") (by decide +kernel) (by decide) (by decide) rfl fun b d doc' new a h h1 h2 h3 => ?_
    obtain ⟨rfl, rfl⟩ : b = 23 ∧ d = 24 :=
      (by decide +kernel : ∀ d ≤ 25, ∀ b < d, (b! "3") = slice (b! "a:\n  b: 1\n  e: true\nd: 3\n") b d → b = 23 ∧ d = 24) d h.le b h.lt
        (Except.ok.inj ((show valueText (((docOfText (b! "a:\n  b: 1\n  c: 2\nd: 3\n")).after 2 (.insert (b! "e") (.bool true))).after 2 (.remove (b! "c"))).data 8 = .ok (b! "3") by decide +kernel).symm.trans
          h.text))
    obtain rfl := Except.ok.inj ((show _ = Except.ok ((((docOfText (b! "a:\n  b: 1\n  c: 2\nd: 3\n")).after 2 (.insert (b! "e") (.bool true))).after 2 (.remove (b! "c"))).after 8 (.setBool false))
      by decide +kernel).symm.trans h1)
    obtain rfl : b! "false" = new := Except.ok.inj (((by decide +kernel) : _ = Except.ok (b! "false")).symm.trans h2)
    obtain rfl : AnyV.bool false = a := Except.ok.inj (((by decide +kernel) : _ = Except.ok (AnyV.bool false)).symm.trans h3)
    exact ⟨plain_token (s := b! "false") (by decide) (by decide) (by decide) (by decide), by decide, by decide, .plain (by decide) (by decide) (by decide) (by decide) (by decide)⟩
  exact ⟨_, _, hp, hs, (C89_series_partial hp (by decide +kernel) (by decide) hs).2⟩

/-- `Suits.pushFlow` for values that are kept as they are, at the end of a line. -/
theorem Suits.pushIn {inp : Bytes} {doc : Document} {x : Nat} {val : Val} {C : Coll} {tr : Bool} {w : Bytes} {L : List Nat} {z : Nat} {zt : Bytes} (hC : doc.data.sequence x = .ok C)
    (hk : C.kind = .inline tr w) (hend : tr = true ∨ w = []) (hL : seqValues doc.data x = .ok L) (hz : L.getLast? = some z) (hzt : valueText doc.data z = .ok zt) (h0 : zt.headD 0 ∉ [0, PIPE, GT])
    (hauto : doc.data.pre z = .ok []) (hv : val.keptIn = true)
    (hall : ∀ b d, Stands inp doc x b d → LBR ∉ inp.take b ∧ LCB ∉ inp.take b ∧ (inp[d]? = some NL ∨ d = inp.length) ∧ KeysEnd inp b) : Suits inp doc x (.push val) := by
  refine .pushFlow hC hk hL hz hzt h0 hauto (Val.keptIn_sep hv _) (Val.keptIn_token hv (R := [COMMA]) (by decide)).2 ?_
  intro r s b e d E h1 h2 h3 h4 h5 h6 h7
  obtain ⟨k1, k2, k3, k4⟩ := hall b d h2
  obtain ⟨n1, rfl⟩ := outer_top h4 k1 k2
  exact ⟨(Val.keptIn_token hv (closing_ctl (by decide) h6 h7 rfl hend)).1, line_after k3, k4, fun h => absurd h n1⟩

/-- The conditions of C89 are met by two items pushed to a list in brackets one after the other. -/
example : ∃ doc doc', Parsed (b! "a: [1]\nb: 2\n") doc ∧ Series (b! "a: [1]\nb: 2\n") doc (b! "a: [1,\nx,\n3]\nb: 2\n") doc' ∧ Stable doc' := by
  have hp : Parsed (b! "a: [1]\nb: 2\n") (docOfText (b! "a: [1]\nb: 2\n")) := ⟨60, by decide +kernel⟩
  have hs : Series (b! "a: [1]\nb: 2\n") (docOfText (b! "a: [1]\nb: 2\n")) (b! "a: [1,\nx,\n3]\nb: 2\n")
      (((docOfText (b! "a: [1]\nb: 2\n")).after 2 (.push (.str (b! "x")))).after 2 (.push (.number (b! "3") .u8))) := by
    refine .cons (mid := b! "a: [1,\nx]\nb: 2\n") (doc' := (docOfText (b! "a: [1]\nb: 2\n")).after 2 (.push (.str (b! "x")))) (x := 2) (op := .push (.str (b! "x"))) (old := b! "[1]") (by decide)
      (.inl (by decide)) (.inr (by decide)) (.viaMap [(b! "a", 2), (b! "b", 6)] (b! "a") .self (by decide +kernel) (by decide +kernel) (by decide)) (by decide +kernel) (by decide) ?_ (by decide +kernel)
      (by decide +kernel) (by decide) ?_
    · refine .pushIn (C := ⟨0, .inline false [], [3]⟩) (by decide +kernel) rfl (.inr rfl) (L := [4]) (by decide +kernel) rfl (zt := b! "1") (by decide +kernel) (by decide) (by decide +kernel) (by decide) ?_
      intro b d h
      obtain ⟨rfl, rfl⟩ : b = 3 ∧ d = 6 :=
        (by decide +kernel : ∀ d ≤ 12, ∀ b < d, (b! "[1]") = slice (b! "a: [1]\nb: 2\n") b d → b = 3 ∧ d = 6) d h.le b h.lt
          (Except.ok.inj ((show valueText _ _ = .ok (b! "[1]") by decide +kernel).symm.trans h.text))
      exact ⟨by decide, by decide, .inl (by decide), .opened (by decide) (by decide) (by decide) (p := 1) (by decide) (.inr (by decide))
        (fun i h1 h2 => (by decide : ∀ i < 3, 1 < i → isIndicator ((b! "a: [1]\nb: 2\n").getD i 0) = true ∨ dashes ((b! "a: [1]\nb: 2\n").drop i) = true) i h2 h1)⟩
    refine .cons (mid := b! "a: [1,\nx,\n3]\nb: 2\n") (doc' := ((docOfText (b! "a: [1]\nb: 2\n")).after 2 (.push (.str (b! "x")))).after 2 (.push (.number (b! "3") .u8))) (x := 2)
      (op := .push (.number (b! "3") .u8)) (old := b! "[1,\nx]") (by decide)
      (.inl (by decide)) (.inr (by decide)) (.viaMap [(b! "a", 2), (b! "b", 6)] (b! "a") .self (by decide +kernel) (by decide +kernel) (by decide)) (by decide +kernel) (by decide) ?_ (by decide +kernel)
      (by decide +kernel) (by decide) .nil
    refine .pushIn (C := ⟨0, .inline false [], [3, 7]⟩) (by decide +kernel) rfl (.inr rfl) (L := [4, 8]) (by decide +kernel) rfl (zt := b! "x") (by decide +kernel) (by decide) (by decide +kernel) (by decide) ?_
    intro b d h
    obtain ⟨rfl, rfl⟩ : b = 3 ∧ d = 9 :=
      (by decide +kernel : ∀ d ≤ 15, ∀ b < d, (b! "[1,\nx]") = slice (b! "a: [1,\nx]\nb: 2\n") b d → b = 3 ∧ d = 9) d h.le b h.lt
        (Except.ok.inj ((show valueText _ _ = .ok (b! "[1,\nx]") by decide +kernel).symm.trans h.text))
    exact ⟨by decide, by decide, .inl (by decide), .opened (by decide) (by decide) (by decide) (p := 1) (by decide) (.inr (by decide))
      (fun i h1 h2 => (by decide : ∀ i < 3, 1 < i → isIndicator ((b! "a: [1,\nx]\nb: 2\n").getD i 0) = true ∨ dashes ((b! "a: [1,\nx]\nb: 2\n").drop i) = true) i h2 h1)⟩
  exact ⟨_, _, hp, hs, (C89_series_partial hp (by decide +kernel) (by decide) hs).2⟩

/-- `Suits.removeAtFlow` at the end of a line. -/
theorem Suits.removeAtIn {inp : Bytes} {doc : Document} {x n : Nat} {C : Coll} {tr : Bool} {w : Bytes} {L : List Nat} (hC : doc.data.sequence x = .ok C) (hk : C.kind = .inline tr w)
    (hL : seqValues doc.data x = .ok L) (hn : n < L.length) (R : Removable n L.length tr w) (hz : ∀ v, L[n]? = some v → ∃ z, valueText doc.data v = .ok z ∧ z.headD 0 ∉ [PIPE, GT])
    (hz' : ∀ v, 0 < n → L[n - 1]? = some v → ∃ z, valueText doc.data v = .ok z ∧ z.headD 0 ∉ [PIPE, GT, 0])
    (hall : ∀ b d, Stands inp doc x b d → LBR ∉ inp.take b ∧ LCB ∉ inp.take b ∧ (inp[d]? = some NL ∨ d = inp.length) ∧ KeysEnd inp b) : Suits inp doc x (.removeAt n) := by
  refine .removeAtFlow hC hk hL hn R hz hz' ?_
  intro r s b d E h1 h2 h3 h4
  obtain ⟨k1, k2, k3, k4⟩ := hall b d h2
  obtain ⟨n1, rfl⟩ := outer_top h4 k1 k2
  exact ⟨line_after k3, k4, fun h => absurd h n1⟩

/-- The conditions of C89 are met by an item pushed to a list in brackets, and the one before it removed. -/
example : ∃ doc doc', Parsed (b! "a: [1]\nb: 2\n") doc ∧ Series (b! "a: [1]\nb: 2\n") doc (b! "a: [\nx]\nb: 2\n") doc' ∧ Stable doc' := by
  have hp : Parsed (b! "a: [1]\nb: 2\n") (docOfText (b! "a: [1]\nb: 2\n")) := ⟨60, by decide +kernel⟩
  have hs : Series (b! "a: [1]\nb: 2\n") (docOfText (b! "a: [1]\nb: 2\n")) (b! "a: [\nx]\nb: 2\n")
      (((docOfText (b! "a: [1]\nb: 2\n")).after 2 (.push (.str (b! "x")))).after 2 (.removeAt 0)) := by
    refine .cons (mid := b! "a: [1,\nx]\nb: 2\n") (doc' := (docOfText (b! "a: [1]\nb: 2\n")).after 2 (.push (.str (b! "x")))) (x := 2) (op := .push (.str (b! "x"))) (old := b! "[1]") (by decide)
      (.inl (by decide)) (.inr (by decide)) (.viaMap [(b! "a", 2), (b! "b", 6)] (b! "a") .self (by decide +kernel) (by decide +kernel) (by decide)) (by decide +kernel) (by decide) ?_ (by decide +kernel)
      (by decide +kernel) (by decide) ?_
    · refine .pushIn (C := ⟨0, .inline false [], [3]⟩) (by decide +kernel) rfl (.inr rfl) (L := [4]) (by decide +kernel) rfl (zt := b! "1") (by decide +kernel) (by decide) (by decide +kernel) (by decide) ?_
      intro b d h
      obtain ⟨rfl, rfl⟩ : b = 3 ∧ d = 6 :=
        (by decide +kernel : ∀ d ≤ 12, ∀ b < d, (b! "[1]") = slice (b! "a: [1]\nb: 2\n") b d → b = 3 ∧ d = 6) d h.le b h.lt
          (Except.ok.inj ((show valueText _ _ = .ok (b! "[1]") by decide +kernel).symm.trans h.text))
      exact ⟨by decide, by decide, .inl (by decide), .opened (by decide) (by decide) (by decide) (p := 1) (by decide) (.inr (by decide))
        (fun i h1 h2 => (by decide : ∀ i < 3, 1 < i → isIndicator ((b! "a: [1]\nb: 2\n").getD i 0) = true ∨ dashes ((b! "a: [1]\nb: 2\n").drop i) = true) i h2 h1)⟩
    refine .cons (mid := b! "a: [\nx]\nb: 2\n") (doc' := ((docOfText (b! "a: [1]\nb: 2\n")).after 2 (.push (.str (b! "x")))).after 2 (.removeAt 0)) (x := 2)
      (op := .removeAt 0) (old := b! "[1,\nx]") (by decide)
      (.inl (by decide)) (.inr (by decide)) (.viaMap [(b! "a", 2), (b! "b", 6)] (b! "a") .self (by decide +kernel) (by decide +kernel) (by decide)) (by decide +kernel) (by decide) ?_ (by decide +kernel)
      (by decide +kernel) (by decide) .nil
    refine .removeAtIn (C := ⟨0, .inline false [], [3, 7]⟩) (by decide +kernel) rfl (L := [4, 8]) (by decide +kernel) (by decide) (.inl (by decide))
      (fun v hv => by cases hv; exact ⟨b! "1", by decide +kernel, by decide⟩) (fun v h0 _ => absurd h0 (by decide)) ?_
    intro b d h
    obtain ⟨rfl, rfl⟩ : b = 3 ∧ d = 9 :=
      (by decide +kernel : ∀ d ≤ 15, ∀ b < d, (b! "[1,\nx]") = slice (b! "a: [1,\nx]\nb: 2\n") b d → b = 3 ∧ d = 9) d h.le b h.lt
        (Except.ok.inj ((show valueText _ _ = .ok (b! "[1,\nx]") by decide +kernel).symm.trans h.text))
    exact ⟨by decide, by decide, .inl (by decide), .opened (by decide) (by decide) (by decide) (p := 1) (by decide) (.inr (by decide))
      (fun i h1 h2 => (by decide : ∀ i < 3, 1 < i → isIndicator ((b! "a: [1,\nx]\nb: 2\n").getD i 0) = true ∨ dashes ((b! "a: [1,\nx]\nb: 2\n").drop i) = true) i h2 h1)⟩
  exact ⟨_, _, hp, hs, (C89_series_partial hp (by decide +kernel) (by decide) hs).2⟩

end Verif
