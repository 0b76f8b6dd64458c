import Verif.CutDocs
import Verif.Props.Shrink
/-
Entries and items added to block collections, and removed from them, in a document whose values are where its tree says in its text.  Used in proofs only; nothing here is part of the Rust code.
-/
namespace Verif

/-- What is written is read back. -/
theorem Laid.stable {inp : Bytes} {doc : Document} {t : Tree Nat} {e : Nat} (h : Laid inp doc t e) (hh : hasHeader inp = false) : Stable doc := by
  obtain ⟨doc', v, h1, h2, h3⟩ := h.again hh
  exact ⟨_, doc', v, h.write, parsed_iff.1 h1, h3, h2⟩

theorem Laid.insertT {inp : Bytes} {doc : Document} {t : Tree Nat} {e0 : Nat} (h : Laid inp doc t e0) (hh : hasHeader inp = false) (hf : followed inp = true)
    (hc : noWsComma inp = true ∨ LBR ∉ inp) (hu : validUtf8 inp = true ∨ HASH ∉ inp) {x : Nat} (hx : Live doc x) {old : Bytes} (ho : valueText doc.data x = .ok old) (hn : old.headD 0 ≠ 0)
    {C : Coll} {f : Bool} (hC : doc.data.mapping x = .ok C) (hk : C.kind = .block) 
    (hends : ∀ pre items, t.find x = some (.node x pre true C.indent .block items) → items.erase.tailOk C.indent true f C.indent) :
    ∃ b d, b < d ∧ d ≤ inp.length ∧ old = slice inp b d ∧ ReadFrom inp doc x b d ∧ C.indent = columnAt inp b ∧ (∃ u, t.find x = some u ∧ LiesTo inp u.erase d) ∧
      ∀ key val, mapGet doc.data x key = .ok none → laterKey key = true → (f = true → keyBlock key = true ∧ isWs ((val.sepText (b! " ")).headD 0) = true) → gap (val.sepText (b! " ")) = true → Token false (inp.drop d) (val.newText C.indent) val.reads →
        (val.newText C.indent).headD 0 ≠ 0 → d < inp.length → endsLine (inp.drop d) = true → KeysEnd inp d →
        ∀ out, out = inp.take d ++ (b! "\n" ++ List.replicate C.indent SP ++ key ++ b! ":" ++ val.sepText (b! " ") ++ val.newText C.indent) ++ inp.drop d →
        ∃ doc', doc.edit x (.insert key val) = .ok doc' ∧ (∃ t' e1, Laid out doc' t' e1 ∧ (t.nested → (val.newText C.indent).headD 0 ≠ PIPE → (val.newText C.indent).headD 0 ≠ GT → t'.nested)) ∧
          ∀ l, Reads doc.data x (.map l) → ∃ l', Reads doc'.data x (.map l') ∧ l'.list = l.list ++ [(key, .scalar val.reads)] := by

  have ht := h.laid.holds
  obtain ⟨pre, items, b, d, hu, hto, h1, h2, h3, h4, h5, h6⟩ := h.nest hh hf hc hu hx ho hn (m := true) hC hk hends
  refine ⟨b, d, h1, h2, h3, h4, h5, ⟨_, hu, by rw [Tree.erase]; exact hto⟩, ?_⟩
  intro key val hg hkey hfirst hsep htok h0 hdl hline hkeys out hout
  obtain ⟨p, ha⟩ := ht.at hu
  have heq := mapInsertV_eq ha.rep key val
  simp only [Tree.id_node] at heq
  have hl : items.lookup key = none := by rw [ha.mapGet key] at hg; simpa using hg
  obtain ⟨i, v, d2, g1, _, _, _, g2⟩ := ht.insertNew hu key val.sep (val.scalar (.node x pre true C.indent .block items)) hl
  rw [← heq] at g1
  have e1 : insertPre val.sep = val.sepText (b! " ") := by
    cases val with
    | null sep => cases sep <;> rfl
    | _ => rfl
  have e2 : (val.scalar (.node x pre true C.indent .block items)).write = val.newText C.indent := Val.scalar_write
  have e3 : (val.scalar (.node x pre true C.indent .block items)).value = val.reads := Val.scalar_value
  have hrow : newRow true C.indent ⟨.bare, key, key⟩ (insertPre val.sep) (val.scalar (.node x pre true C.indent .block items)).write =
      b! "\n" ++ List.replicate C.indent SP ++ key ++ b! ":" ++ val.sepText (b! " ") ++ val.newText C.indent := by
    rw [e1, e2]
    simp [newRow, rowHead, RStr.write, NL, COLON]
  have hfin := h6 ⟨doc.suffix, doc.root, d2⟩ i ⟨.bare, key, key⟩ v _ _ rfl g2 hdl hline hkeys ⟨fun h => ⟨rfl, by rw [e1]; exact hfirst h⟩, fun _ => ⟨rfl, hkey⟩, by rw [e1]; exact hsep, by rw [e2, e3]; exact htok, by rw [e2]; exact h0⟩
  rw [hrow, ← hout] at hfin
  obtain ⟨e5, hlaid⟩ := hfin
  refine ⟨_, edit_insert (asMapping_of ha.rep) g1, ⟨_, e5, hlaid, fun hn n1 n2 => Tree.nested_add hn hu (by rw [e2]; exact ⟨h0, n1, n2⟩)⟩, ?_⟩
  intro l hl
  obtain ⟨p', ha'⟩ := g2.at (Tree.find_upd hu rfl)
  have c1 : Content.map l = .map items.entriesC := Reads.unique hl (by have := Tree.content_reads ha.rep; exact this)
  cases c1
  refine ⟨_, (by have := Tree.content_reads ha'.rep; exact this), ?_⟩
  rw [Items.entriesC_append]
  simp only [Items.entriesC, Entries.list, Tree.content, Val.scalar_value]

theorem Laid.insert {inp : Bytes} {doc : Document} {t : Tree Nat} {e0 : Nat} (h : Laid inp doc t e0) (hh : hasHeader inp = false) (hf : followed inp = true)
    (hc : noWsComma inp = true ∨ LBR ∉ inp) (hu : validUtf8 inp = true ∨ HASH ∉ inp) {x : Nat} (hx : Live doc x) {old : Bytes} (ho : valueText doc.data x = .ok old) (hn : old.headD 0 ≠ 0)
    {C : Coll} {f : Bool} (hC : doc.data.mapping x = .ok C) (hk : C.kind = .block) (hends : ∀ w, EndsWith doc.data x w → Closes doc.data C.indent true f w) :
    ∃ b d, b < d ∧ d ≤ inp.length ∧ old = slice inp b d ∧ ReadFrom inp doc x b d ∧ C.indent = columnAt inp b ∧
      ∀ key val, mapGet doc.data x key = .ok none → laterKey key = true → (f = true → keyBlock key = true ∧ isWs ((val.sepText (b! " ")).headD 0) = true) → gap (val.sepText (b! " ")) = true → Token false (inp.drop d) (val.newText C.indent) val.reads →
        (val.newText C.indent).headD 0 ≠ 0 → d < inp.length → endsLine (inp.drop d) = true → KeysEnd inp d →
        ∀ out, out = inp.take d ++ (b! "\n" ++ List.replicate C.indent SP ++ key ++ b! ":" ++ val.sepText (b! " ") ++ val.newText C.indent) ++ inp.drop d →
        ∃ doc', doc.edit x (.insert key val) = .ok doc' ∧ (∃ t' e1, Laid out doc' t' e1) ∧
          ∀ l, Reads doc.data x (.map l) → ∃ l', Reads doc'.data x (.map l') ∧ l'.list = l.list ++ [(key, .scalar val.reads)] := by
  obtain ⟨b, d, h1, h2, h3, h4, h5, -, h6⟩ := h.insertT hh hf hc hu hx ho hn hC hk (h.laid.holds.tail hends)
  refine ⟨b, d, h1, h2, h3, h4, h5, fun key val a1 a2 a3 a4 a5 a6 a7 a8 a9 out hout => ?_⟩
  obtain ⟨doc', g1, ⟨t', e1, g2, -⟩, g3⟩ := h6 key val a1 a2 a3 a4 a5 a6 a7 a8 a9 out hout
  exact ⟨doc', g1, ⟨t', e1, g2⟩, g3⟩

theorem Laid.pushT {inp : Bytes} {doc : Document} {t : Tree Nat} {e0 : Nat} (h : Laid inp doc t e0) (hh : hasHeader inp = false) (hf : followed inp = true)
    (hc : noWsComma inp = true ∨ LBR ∉ inp) (hu : validUtf8 inp = true ∨ HASH ∉ inp) {x : Nat} (hx : Live doc x) {old : Bytes} (ho : valueText doc.data x = .ok old) (hn : old.headD 0 ≠ 0)
    {C : Coll} (hC : doc.data.sequence x = .ok C) (hk : C.kind = .block) 
    (hends : ∀ pre items, t.find x = some (.node x pre false C.indent .block items) → items.erase.tailOk C.indent false false C.indent)
    {w : Nat} (hlast : lastIn doc.data x = some w) {auto : Bytes} (hauto : doc.data.pre w = .ok auto) :
    ∃ b d, b < d ∧ d ≤ inp.length ∧ old = slice inp b d ∧ ReadFrom inp doc x b d ∧ C.indent = columnAt inp b ∧ (∃ u, t.find x = some u ∧ LiesTo inp u.erase d) ∧
      ∀ val, gap (val.sepText auto) = true → Token false (inp.drop d) (val.newText C.indent) val.reads →
        (val.newText C.indent).headD 0 ≠ 0 → d < inp.length → endsLine (inp.drop d) = true → KeysEnd inp d →
        ∀ out, out = inp.take d ++ (b! "\n" ++ List.replicate C.indent SP ++ b! "-" ++ val.sepText auto ++ val.newText C.indent) ++ inp.drop d →
        ∃ doc', doc.edit x (.push val) = .ok doc' ∧ (∃ t' e1, Laid out doc' t' e1 ∧ (t.nested → (val.newText C.indent).headD 0 ≠ PIPE → (val.newText C.indent).headD 0 ≠ GT → t'.nested)) ∧
          ∀ l, Reads doc.data x (.seq l) → ∃ l', Reads doc'.data x (.seq l') ∧ l'.list = l.list ++ [.scalar val.reads] := by

  have ht := h.laid.holds
  obtain ⟨pre, items, b, d, hu, hto, h1, h2, h3, h4, h5, h6⟩ := h.nest hh hf hc hu hx ho hn (m := false) (f := false) hC hk hends
  refine ⟨b, d, h1, h2, h3, h4, h5, ⟨_, hu, by rw [Tree.erase]; exact hto⟩, ?_⟩
  intro val hsep htok h0 hdl hline hkeys out hout
  obtain ⟨p, ha⟩ := ht.at hu
  have heq := seqPushV_eq ha.rep val
  simp only [Tree.id_node] at heq
  obtain ⟨i, v, d2, g1, _, _, _, g2⟩ := ht.push hu val.sep (val.scalar (.node x pre false C.indent .block items))
  rw [← heq] at g1
  have e0 : pushPre .auto items = auto := by
    have hls : ∃ kv, items.pairs.getLast? = some kv := by
      cases hp : items.pairs.getLast? with
      | some kv => exact ⟨kv, rfl⟩
      | none =>
        exfalso
        unfold lastIn at hlast
        have hm : doc.data.mapping x = .error .panic := by simp [Data.mapping, ha.get, Tree.raw, collRaw]
        rw [hm, hC, seqValues_node ha.rep] at hlast
        simp [hk, List.getLast?_map, hp] at hlast
    obtain ⟨⟨k, w'⟩, hls⟩ := hls
    have := lastIn_node ha hls
    rw [hlast] at this
    obtain rfl := Option.some.inj this
    rw [pushPre, hls]
    rw [getLast?_get] at hls
    obtain ⟨p', ha'⟩ := ht.at (Tree.find_trans ht.nodup hu (Tree.find_pair ha.nodup hls))
    have := pre_of ha'.get
    rw [hauto] at this
    exact (Except.ok.inj this).symm
  have e1 : pushPre val.sep items = val.sepText auto := by
    rw [← e0]
    cases val with
    | null sep => cases sep <;> rfl
    | _ => rfl
  have e2 : (val.scalar (.node x pre false C.indent .block items)).write = val.newText C.indent := Val.scalar_write
  have e3 : (val.scalar (.node x pre false C.indent .block items)).value = val.reads := Val.scalar_value
  have hrow : newRow false C.indent noKey (pushPre val.sep items) (val.scalar (.node x pre false C.indent .block items)).write =
      b! "\n" ++ List.replicate C.indent SP ++ b! "-" ++ val.sepText auto ++ val.newText C.indent := by
    rw [e1, e2]
    simp [newRow, rowHead, NL, DASH]
  have hfin := h6 ⟨doc.suffix, doc.root, d2⟩ i noKey v _ _ rfl g2 hdl hline hkeys ⟨fun h => (by cases h), fun h => (by cases h), by rw [e1]; exact hsep, by rw [e2, e3]; exact htok, by rw [e2]; exact h0⟩
  rw [hrow, ← hout] at hfin
  obtain ⟨e5, hlaid⟩ := hfin
  refine ⟨_, edit_push (asSequence_of ha.rep) g1, ⟨_, e5, hlaid, fun hn n1 n2 => Tree.nested_add hn hu (by rw [e2]; exact ⟨h0, n1, n2⟩)⟩, ?_⟩
  intro l hl
  obtain ⟨p', ha'⟩ := g2.at (Tree.find_upd hu rfl)
  have c1 : Content.seq l = .seq items.elemsC := Reads.unique hl (by have := Tree.content_reads ha.rep; exact this)
  cases c1
  refine ⟨_, (by have := Tree.content_reads ha'.rep; exact this), ?_⟩
  rw [Items.elemsC_append]
  simp only [Items.elemsC, Elems.list, Tree.content, Val.scalar_value]

theorem Laid.push {inp : Bytes} {doc : Document} {t : Tree Nat} {e0 : Nat} (h : Laid inp doc t e0) (hh : hasHeader inp = false) (hf : followed inp = true)
    (hc : noWsComma inp = true ∨ LBR ∉ inp) (hu : validUtf8 inp = true ∨ HASH ∉ inp) {x : Nat} (hx : Live doc x) {old : Bytes} (ho : valueText doc.data x = .ok old) (hn : old.headD 0 ≠ 0)
    {C : Coll} (hC : doc.data.sequence x = .ok C) (hk : C.kind = .block) (hends : ∀ w, EndsWith doc.data x w → Closes doc.data C.indent false false w)
    {w : Nat} (hlast : lastIn doc.data x = some w) {auto : Bytes} (hauto : doc.data.pre w = .ok auto) :
    ∃ b d, b < d ∧ d ≤ inp.length ∧ old = slice inp b d ∧ ReadFrom inp doc x b d ∧ C.indent = columnAt inp b ∧
      ∀ val, gap (val.sepText auto) = true → Token false (inp.drop d) (val.newText C.indent) val.reads →
        (val.newText C.indent).headD 0 ≠ 0 → d < inp.length → endsLine (inp.drop d) = true → KeysEnd inp d →
        ∀ out, out = inp.take d ++ (b! "\n" ++ List.replicate C.indent SP ++ b! "-" ++ val.sepText auto ++ val.newText C.indent) ++ inp.drop d →
        ∃ doc', doc.edit x (.push val) = .ok doc' ∧ (∃ t' e1, Laid out doc' t' e1) ∧
          ∀ l, Reads doc.data x (.seq l) → ∃ l', Reads doc'.data x (.seq l') ∧ l'.list = l.list ++ [.scalar val.reads] := by
  obtain ⟨b, d, h1, h2, h3, h4, h5, -, h6⟩ := h.pushT hh hf hc hu hx ho hn hC hk (h.laid.holds.tail hends) hlast hauto
  refine ⟨b, d, h1, h2, h3, h4, h5, fun val a4 a5 a6 a7 a8 a9 out hout => ?_⟩
  obtain ⟨doc', g1, ⟨t', e1, g2, -⟩, g3⟩ := h6 val a4 a5 a6 a7 a8 a9 out hout
  exact ⟨doc', g1, ⟨t', e1, g2⟩, g3⟩

theorem Laid.removeT {inp : Bytes} {doc : Document} {t : Tree Nat} {e0 : Nat} (h : Laid inp doc t e0) (hh : hasHeader inp = false) (hf : followed inp = true)
    (hc : noWsComma inp = true ∨ LBR ∉ inp) (hu : validUtf8 inp = true ∨ HASH ∉ inp) {x : Nat} (hx : Live doc x) {old : Bytes} (ho : valueText doc.data x = .ok old) (hn : old.headD 0 ≠ 0)
    {C : Coll} (hC : doc.data.mapping x = .ok C) (hk : C.kind = .block) {L : List (Bytes × Nat)} (hL : mapEntries doc.data x = .ok L) {key : Bytes} {n : Nat}
    (hkey : L.findIdx? (·.1 == key) = some (n + 1)) {k' : Bytes} {w : Nat} (hbefore : L[n]? = some (k', w)) :
    ∃ b e e' d i, b < e ∧ e < e' ∧ e' ≤ d ∧ d ≤ inp.length ∧ old = slice inp b d ∧ ReadFrom inp doc x b d ∧ C.indent = columnAt inp b ∧ (∃ u u' u0, t.find w = some u ∧ LiesTo inp u.erase e ∧ t.find u'.id = some u' ∧ LiesTo inp u'.erase e' ∧ t.find x = some u0 ∧ LiesTo inp u0.erase d) ∧
      C.items[n + 1]? = some i ∧ mapEntryText doc.data i = .ok (slice inp e e') ∧
      ∀ q f, FullGap inp e' q → inp[e']? = some NL → endsLine (inp.drop d) = true → KeysEnd inp e → (f = true → columnAt inp q ≤ C.indent ∧ ∃ k r, FirstKey inp k q r) →
        Closes doc.data (columnAt inp q) (inp[q]? != some DASH) f w → (∀ w', EndsWith doc.data w w' → Closes doc.data (columnAt inp q) (inp[q]? != some DASH) f w') →
        ∃ doc', doc.edit x (.remove key) = .ok doc' ∧ (∃ t' e1, Laid (inp.take e ++ inp.drop e') doc' t' e1 ∧ (t.nested → t'.nested)) ∧
          ∀ l, Reads doc.data x (.map l) → ∃ l', Reads doc'.data x (.map l') ∧ l'.list = l.list.eraseIdx (n + 1) := by

  have hlen : n + 1 < C.items.length := by
    have ht := h.laid.holds
    obtain ⟨pre, ind, k, items, p, hf, ha, hLi⟩ := ht.mapNode hx hL
    rw [mapping_of ha.get] at hC
    cases hC
    have hi : items.indexOf key = some (n + 1) := by rw [indexOf_findIdx, ← hLi, hkey]
    exact Items.indexOf_lt hi
  have ht := h.laid.holds
  obtain ⟨pre, items, b, e, e', d, w1, kv, hu, hto0, hkv, hto, hto', ⟨_, hw1⟩, h1, h2, h3, h4, h5, h6, h7, h8, h9, h10⟩ := h.cut hh hf hc hu hx ho hn (m := true) hC hk hlen
  obtain ⟨p, ha⟩ := ht.at hu
  obtain rfl : w1.id = w := by
    rw [valueIn, if_pos rfl, hL] at h8
    simpa [hbefore] using h8.symm
  have hLi : L = items.pairs.map fun q => (q.1.id, q.2.id) := by
    have := mapEntries_node ha.rep
    rw [hL] at this
    exact Except.ok.inj this
  have hi : items.indexOf key = some (n + 1) := by rw [indexOf_findIdx, ← hLi, hkey]
  have hids : C.items = items.ids := by
    have := mapping_of ha.get
    rw [hC] at this
    rw [Except.ok.inj this]
  have hlt : n + 1 < items.ids.length := Items.indexOf_lt hi
  obtain ⟨ip, ikey, v, e1, e2, e3, e4⟩ := ha.rep.node.2.item .block (List.getElem?_eq_getElem hlt)
  have hnodup : v.allIds.Nodup := by
    obtain ⟨_, hv⟩ := ht.at (Tree.find_trans ht.nodup hu (Tree.find_pair ha.nodup e1))
    exact hv.nodup
  have hent : mapEntryText doc.data items.ids[n + 1] = .ok (itemText true .block ip ikey v) := by
    simp [mapEntryText, mappingItem_of e3, pre_of e3, pre_of e4.head, e4.text hnodup, bind, Except.bind, pure,
      Except.pure, itemText, COLON]
  rw [e2] at h9
  rw [Option.some.inj h9] at hent
  refine ⟨b, e, e', d, _, h1, h2, h3, h4, h5, h6, h7, ⟨w1, kv.2, _, Tree.find_trans ht.nodup hu (Tree.find_pair ha.nodup hw1), hto, Tree.find_trans ht.nodup hu (Tree.find_pair ha.nodup (key := kv.1) (by rw [hkv])), hto', hu, by rw [Tree.erase]; exact hto0⟩, by rw [hids]; exact List.getElem?_eq_getElem hlt, hent, ?_⟩
  intro q f hq hnl hline hkeys hfirst hcl hcl'
  obtain ⟨b2, d2, items', g1, g2, g3⟩ := ht.removeKey hu key
  rw [hi] at g2
  cases g2
  obtain ⟨e5, hlaid⟩ := h10 ⟨doc.suffix, doc.root, d2⟩ q f rfl g3 hq hnl hline hkeys (fun h => (hfirst h).1) hcl hcl' (fun h => (hfirst h).2)
  refine ⟨_, edit_remove (asMapping_of ha.rep) g1, ⟨_, e5, hlaid, fun hn => Tree.nested_cut hn hu n⟩, ?_⟩
  intro l hl
  obtain ⟨p', ha'⟩ := g3.at (Tree.find_upd hu rfl)
  have c1 : Content.map l = .map items.entriesC := Reads.unique hl (by have := Tree.content_reads ha.rep; exact this)
  cases c1
  exact ⟨_, (by have := Tree.content_reads ha'.rep; exact this), Items.entriesC_eraseIdx items (n + 1)⟩

theorem Laid.remove {inp : Bytes} {doc : Document} {t : Tree Nat} {e0 : Nat} (h : Laid inp doc t e0) (hh : hasHeader inp = false) (hf : followed inp = true)
    (hc : noWsComma inp = true ∨ LBR ∉ inp) (hu : validUtf8 inp = true ∨ HASH ∉ inp) {x : Nat} (hx : Live doc x) {old : Bytes} (ho : valueText doc.data x = .ok old) (hn : old.headD 0 ≠ 0)
    {C : Coll} (hC : doc.data.mapping x = .ok C) (hk : C.kind = .block) {L : List (Bytes × Nat)} (hL : mapEntries doc.data x = .ok L) {key : Bytes} {n : Nat}
    (hkey : L.findIdx? (·.1 == key) = some (n + 1)) {k' : Bytes} {w : Nat} (hbefore : L[n]? = some (k', w)) :
    ∃ b e e' d i, b < e ∧ e < e' ∧ e' ≤ d ∧ d ≤ inp.length ∧ old = slice inp b d ∧ ReadFrom inp doc x b d ∧ C.indent = columnAt inp b ∧
      C.items[n + 1]? = some i ∧ mapEntryText doc.data i = .ok (slice inp e e') ∧
      ∀ q f, FullGap inp e' q → inp[e']? = some NL → endsLine (inp.drop d) = true → KeysEnd inp e → (f = true → columnAt inp q ≤ C.indent ∧ ∃ k r, FirstKey inp k q r) →
        Closes doc.data (columnAt inp q) (inp[q]? != some DASH) f w → (∀ w', EndsWith doc.data w w' → Closes doc.data (columnAt inp q) (inp[q]? != some DASH) f w') →
        ∃ doc', doc.edit x (.remove key) = .ok doc' ∧ (∃ t' e1, Laid (inp.take e ++ inp.drop e') doc' t' e1) ∧
          ∀ l, Reads doc.data x (.map l) → ∃ l', Reads doc'.data x (.map l') ∧ l'.list = l.list.eraseIdx (n + 1) := by
  obtain ⟨b, e, e', d, i, h1, h2, h3, h4, h5, h6, h7, -, h8, h9, h10⟩ := h.removeT hh hf hc hu hx ho hn hC hk hL hkey hbefore
  refine ⟨b, e, e', d, i, h1, h2, h3, h4, h5, h6, h7, h8, h9, fun q f a1 a2 a3 a4 a5 a6 a7 => ?_⟩
  obtain ⟨doc', g1, ⟨t', e1, g2, -⟩, g3⟩ := h10 q f a1 a2 a3 a4 a5 a6 a7
  exact ⟨doc', g1, ⟨t', e1, g2⟩, g3⟩

theorem Laid.removeAtT {inp : Bytes} {doc : Document} {t : Tree Nat} {e0 : Nat} (h : Laid inp doc t e0) (hh : hasHeader inp = false) (hf : followed inp = true)
    (hc : noWsComma inp = true ∨ LBR ∉ inp) (hu : validUtf8 inp = true ∨ HASH ∉ inp) {x : Nat} (hx : Live doc x) {old : Bytes} (ho : valueText doc.data x = .ok old) (hn : old.headD 0 ≠ 0)
    {C : Coll} (hC : doc.data.sequence x = .ok C) (hk : C.kind = .block) {L : List Nat} (hL : seqValues doc.data x = .ok L) {n : Nat} (hlen : n + 1 < C.items.length)
    {w : Nat} (hbefore : L[n]? = some w) :
    ∃ b e e' d i, b < e ∧ e < e' ∧ e' ≤ d ∧ d ≤ inp.length ∧ old = slice inp b d ∧ ReadFrom inp doc x b d ∧ C.indent = columnAt inp b ∧ (∃ u u' u0, t.find w = some u ∧ LiesTo inp u.erase e ∧ t.find u'.id = some u' ∧ LiesTo inp u'.erase e' ∧ t.find x = some u0 ∧ LiesTo inp u0.erase d) ∧
      C.items[n + 1]? = some i ∧ seqEntryText doc.data true i = .ok (slice inp e e') ∧
      ∀ q f, FullGap inp e' q → inp[e']? = some NL → endsLine (inp.drop d) = true → KeysEnd inp e → (f = true → columnAt inp q ≤ C.indent ∧ ∃ k r, FirstKey inp k q r) →
        Closes doc.data (columnAt inp q) (inp[q]? != some DASH) f w → (∀ w', EndsWith doc.data w w' → Closes doc.data (columnAt inp q) (inp[q]? != some DASH) f w') →
        ∃ doc', doc.edit x (.removeAt (n + 1)) = .ok doc' ∧ (∃ t' e1, Laid (inp.take e ++ inp.drop e') doc' t' e1 ∧ (t.nested → t'.nested)) ∧
          ∀ l, Reads doc.data x (.seq l) → ∃ l', Reads doc'.data x (.seq l') ∧ l'.list = l.list.eraseIdx (n + 1) := by

  have ht := h.laid.holds
  obtain ⟨pre, items, b, e, e', d, w1, kv, hu, hto0, hkv, hto, hto', ⟨_, hw1⟩, h1, h2, h3, h4, h5, h6, h7, h8, h9, h10⟩ := h.cut hh hf hc hu hx ho hn (m := false) hC hk hlen
  obtain ⟨p, ha⟩ := ht.at hu
  obtain rfl : w1.id = w := by
    rw [valueIn, if_neg (by decide), hL] at h8
    simpa [hbefore] using h8.symm
  have hids : C.items = items.ids := by
    have := sequence_of ha.get
    rw [hC] at this
    rw [Except.ok.inj this]
  have hlt : n + 1 < items.ids.length := by rw [← hids]; exact hlen
  obtain ⟨ip, ikey, v, e1, e2, e3, e4⟩ := ha.rep.node.2.item .block (List.getElem?_eq_getElem hlt)
  have hnodup : v.allIds.Nodup := by
    obtain ⟨_, hv⟩ := ht.at (Tree.find_trans ht.nodup hu (Tree.find_pair ha.nodup e1))
    exact hv.nodup
  have hent : seqEntryText doc.data true items.ids[n + 1] = .ok (itemText false .block ip ikey v) := by
    simp [seqEntryText, sequenceItem_of e3, pre_of e3, pre_of e4.head, e4.text hnodup, bind, Except.bind, pure,
      Except.pure, itemText, DASH]
  rw [e2] at h9
  rw [Option.some.inj h9] at hent
  refine ⟨b, e, e', d, _, h1, h2, h3, h4, h5, h6, h7, ⟨w1, kv.2, _, Tree.find_trans ht.nodup hu (Tree.find_pair ha.nodup hw1), hto, Tree.find_trans ht.nodup hu (Tree.find_pair ha.nodup (key := kv.1) (by rw [hkv])), hto', hu, by rw [Tree.erase]; exact hto0⟩, by rw [hids]; exact List.getElem?_eq_getElem hlt, hent, ?_⟩
  intro q f hq hnl hline hkeys hfirst hcl hcl'
  obtain ⟨d2, g1, g3⟩ := ht.removeAt hu (n + 1)
  obtain ⟨e5, hlaid⟩ := h10 ⟨doc.suffix, doc.root, d2⟩ q f rfl g3 hq hnl hline hkeys (fun h => (hfirst h).1) hcl hcl' (fun h => (hfirst h).2)
  refine ⟨_, edit_removeAt (asSequence_of ha.rep) g1, ⟨_, e5, hlaid, fun hn => Tree.nested_cut hn hu n⟩, ?_⟩
  intro l hl
  obtain ⟨p', ha'⟩ := g3.at (Tree.find_upd hu rfl)
  have c1 : Content.seq l = .seq items.elemsC := Reads.unique hl (by have := Tree.content_reads ha.rep; exact this)
  cases c1
  exact ⟨_, (by have := Tree.content_reads ha'.rep; exact this), Items.elemsC_eraseIdx items (n + 1)⟩

theorem Laid.removeAt {inp : Bytes} {doc : Document} {t : Tree Nat} {e0 : Nat} (h : Laid inp doc t e0) (hh : hasHeader inp = false) (hf : followed inp = true)
    (hc : noWsComma inp = true ∨ LBR ∉ inp) (hu : validUtf8 inp = true ∨ HASH ∉ inp) {x : Nat} (hx : Live doc x) {old : Bytes} (ho : valueText doc.data x = .ok old) (hn : old.headD 0 ≠ 0)
    {C : Coll} (hC : doc.data.sequence x = .ok C) (hk : C.kind = .block) {L : List Nat} (hL : seqValues doc.data x = .ok L) {n : Nat} (hlen : n + 1 < C.items.length)
    {w : Nat} (hbefore : L[n]? = some w) :
    ∃ b e e' d i, b < e ∧ e < e' ∧ e' ≤ d ∧ d ≤ inp.length ∧ old = slice inp b d ∧ ReadFrom inp doc x b d ∧ C.indent = columnAt inp b ∧
      C.items[n + 1]? = some i ∧ seqEntryText doc.data true i = .ok (slice inp e e') ∧
      ∀ q f, FullGap inp e' q → inp[e']? = some NL → endsLine (inp.drop d) = true → KeysEnd inp e → (f = true → columnAt inp q ≤ C.indent ∧ ∃ k r, FirstKey inp k q r) →
        Closes doc.data (columnAt inp q) (inp[q]? != some DASH) f w → (∀ w', EndsWith doc.data w w' → Closes doc.data (columnAt inp q) (inp[q]? != some DASH) f w') →
        ∃ doc', doc.edit x (.removeAt (n + 1)) = .ok doc' ∧ (∃ t' e1, Laid (inp.take e ++ inp.drop e') doc' t' e1) ∧
          ∀ l, Reads doc.data x (.seq l) → ∃ l', Reads doc'.data x (.seq l') ∧ l'.list = l.list.eraseIdx (n + 1) := by
  obtain ⟨b, e, e', d, i, h1, h2, h3, h4, h5, h6, h7, -, h8, h9, h10⟩ := h.removeAtT hh hf hc hu hx ho hn hC hk hL hlen hbefore
  refine ⟨b, e, e', d, i, h1, h2, h3, h4, h5, h6, h7, h8, h9, fun q f a1 a2 a3 a4 a5 a6 a7 => ?_⟩
  obtain ⟨doc', g1, ⟨t', e1, g2, -⟩, g3⟩ := h10 q f a1 a2 a3 a4 a5 a6 a7
  exact ⟨doc', g1, ⟨t', e1, g2⟩, g3⟩

end Verif
