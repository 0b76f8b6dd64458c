import Verif.FlowCut
import Verif.FlowDocs
/-
An item removed from an inline collection anywhere in a document that was read: what is written is read back.  Used in proofs only; nothing here is part of the Rust code.
-/
namespace Verif

/-- An item removed from an inline collection. -/
theorem Laid.cutF {inp : Bytes} {doc : Document} {t : Tree Nat} {e0 : Nat} (h : Laid inp doc t e0) (hh : hasHeader inp = false) (hf : followed inp = true)
    (hc : noWsComma inp = true ∨ LBR ∉ inp) (hu : validUtf8 inp = true ∨ HASH ∉ inp) {x : Nat} (hx : Live doc x) {m tr : Bool} {w : Bytes} {C : Coll} (hC : collAt m doc.data x = .ok C)
    (hk : C.kind = .inline tr w) {k : Nat} (R : Removable k C.items.length tr w)
    (hz : ∀ v zt, valueIn m doc.data x k = some v → valueText doc.data v = .ok zt → zt.headD 0 ≠ PIPE ∧ zt.headD 0 ≠ GT)
    (hz' : ∀ v zt, 0 < k → valueIn m doc.data x (k - 1) = some v → valueText doc.data v = .ok zt → zt.headD 0 ≠ PIPE ∧ zt.headD 0 ≠ GT ∧ zt.headD 0 ≠ 0) (hlt : k < C.items.length) :
    ∃ pre items r s b e e' d E T, t.find x = some (.node x pre m 0 (.inline tr w) items) ∧ C.indent = 0 ∧ b < e ∧ e < e' ∧ e' < d ∧ d ≤ inp.length ∧ valueText doc.data x = .ok (slice inp b d) ∧
      ReadFrom inp doc x b d ∧ (items.texts m (.inline tr w))[k]? = some T ∧ slice inp e e' = (if 0 < k then [COMMA] else []) ++ T ++ (if k = 0 ∧ 1 < C.items.length then [COMMA] else []) ∧
      inp.drop r = skipBlank false inp ∧ Within inp doc.data.view .block doc.root r s x b ∧ Outer inp doc.data.view .block doc.root r s x b d E ∧
      ∀ doc', doc'.suffix = doc.suffix → Holds doc' (Tree.upd x (.node x pre m 0 (.inline tr w) (items.eraseIdx k)) t) →
        (∀ g, FullGap inp E g → NL ∈ slice inp d g ∨ g = inp.length) → KeysEnd inp b → (s = .flow → Apart inp b) →
        ∃ e1, Laid (inp.take e ++ inp.drop e') doc' (Tree.upd x (.node x pre m 0 (.inline tr w) (items.eraseIdx k)) t) e1 := by
  have ht := h.laid.holds
  have A := allows_tidied hf hc hu
  obtain ⟨u0, hu0⟩ := (ht.live_iff x).1 hx
  obtain ⟨pre, items, rfl⟩ := collAt_node ht hu0 hC
  obtain ⟨p, ha⟩ := ht.at hu0
  have hids : C.items = items.ids := by
    have hg := ha.get
    cases m with
    | true =>
      have hC : doc.data.mapping x = .ok C := hC
      rw [mapping_of hg] at hC; rw [← Except.ok.inj hC]
    | false =>
      have hC : doc.data.sequence x = .ok C := hC
      rw [sequence_of hg] at hC; rw [← Except.ok.inj hC]
  have hlen : C.items.length = items.pairs.length := by rw [hids, Items.length_pairs]
  rw [hk] at ha
  have ho := ha.text
  have hrend : Tree.render (.node x pre m C.indent (.inline tr w) items) =
      openOf (.inline tr w) (if m then LCB else LBR) ++ items.render m (.inline tr w) ++ closeOf (.inline tr w) (if m then RCB else RBR) := by
    simp [Tree.render]
  have hn : (Tree.render (.node x pre m C.indent (.inline tr w) items)).headD 0 ≠ 0 := by
    rw [hrend]
    cases m <;> simp [openOf] <;> decide
  obtain ⟨u, r, s, b0, b, d, E, hu', hL, hg, hg0, hr, hbd, hd, w1, w2, w3, hold, hctl, hrf, hwi, hE, hall⟩ := h.swap hh hf hc hu hx ho hn
  rw [hu0, hk] at hu'
  obtain rfl := Option.some.inj hu'
  rw [hk] at hu0
  rw [Tree.erase] at hL
  have hrend' := hrend
  rw [hold] at hrend'
  have htext : ∀ {j : Nat} {kv : RStr × Tree Nat}, items.pairs[j]? = some kv → valueIn m doc.data x j = some kv.2.id ∧ valueText doc.data kv.2.id = .ok kv.2.render := by
    intro j kv hj
    refine ⟨by rw [valueIn_node ha, hj]; rfl, ?_⟩
    obtain ⟨p', ha'⟩ := ht.at (Tree.find_trans ht.nodup hu0 (Tree.find_pair ha.nodup (key := kv.1) (by rw [hj])))
    exact ha'.text
  have hkl : k < items.pairs.length := by omega
  have hkp := List.getElem?_eq_getElem hkl
  obtain ⟨v1, v2⟩ := htext hkp
  obtain ⟨hind, hb, e, e', T, be, ee, ed, dl, q1, q2, q3, hnew⟩ := hL.cutF A hf hg (k := k) (kv := (items.pairs[k].1, items.pairs[k].2.erase)) (by rw [Items.erase_pairs, List.getElem?_map, hkp]; rfl)
    (by rw [Plain, Tree.erase_render]; exact hz _ _ v1 v2)
    (by
      intro kv' h0 hkv'
      rw [Items.erase_pairs, List.getElem?_map] at hkv'
      obtain ⟨kv'', g1, rfl⟩ := Option.map_eq_some_iff.1 hkv'
      obtain ⟨v3, v4⟩ := htext g1
      rw [Plain, Tree.erase_render]
      obtain ⟨y1, y2, y3⟩ := hz' _ _ h0 v3 v4
      exact ⟨⟨y1, y2⟩, y3⟩)
    (by rw [Items.erase_render]; exact hrend'.symm) (by rw [Items.erase_pairs, List.length_map, ← hlen]; exact R)
  rw [← Items.erase_eraseIdx, Items.erase_render] at q1
  rw [← Items.erase_eraseIdx] at hnew
  rw [hind] at hu0 hall hL
  rw [Items.erase_pairs, List.length_map, ← hlen] at q3
  refine ⟨pre, items, r, s, b, e, e', d, E, T, hu0, hind, be, ee, ed, hd, by rw [ho, hold], hrf, by rw [← Items.cellTexts_texts, ← Items.erase_cellTexts]; exact q2, q3, hr, hwi, hE, ?_⟩
  intro doc' hsuf hh2 hline hkeys hap
  have e1 : (Tree.node x pre m 0 (.inline tr w) (items.eraseIdx k)).render = slice inp b e ++ slice inp e' d := by
    rw [← q1, Tree.render]
  have hlb : (inp.take b).length = b := by rw [List.length_take]; omega
  have hle : (inp.take e).length = e := by rw [List.length_take]; omega
  have e2 : inp.take b ++ (slice inp b e ++ slice inp e' d) = inp.take e ++ slice inp e' d := by
    rw [← List.append_assoc]
    congr 1
    have h1 : inp.take b = slice inp 0 b := by simp [slice]
    rw [h1, slice_append (Nat.zero_le _) (Nat.le_of_lt be)]
    simp [slice]
  have e3 : inp.take e ++ slice inp e' d ++ inp.drop d = inp.take e ++ inp.drop e' := by
    rw [List.append_assoc, ← slice_drop (inp := inp) (d := d), slice_append (Nat.le_of_lt ed) hd, slice_drop]
  have hcut := cut3 (inp := inp) (Nat.le_of_lt hbd)
  have hld : (inp.take b ++ slice inp b d).length = d := by rw [List.length_append, slice_length hd, hlb]; omega
  have hsl0 : (slice inp b d).headD 0 = inp.getD b 0 := slice_headD hbd
  have hne : (slice inp b d).headD 0 ≠ 0 := by rw [hsl0]; exact w3
  have hsl1 : (slice inp b e).headD 0 = inp.getD b 0 := slice_headD be
  have hne1 : (slice inp b e).headD 0 ≠ 0 := by rw [hsl1]; exact w3
  have hfin := hall doc' (.node x pre m 0 (.inline tr w) (items.eraseIdx k)) rfl rfl hsuf hh2
  rw [e1, e2, e3] at hfin
  refine hfin ?_ ?_
  · have hfirst : ∀ z, (slice inp b e ++ slice inp e' d ++ z).headD 0 = inp.getD b 0 := fun z => by
      rw [List.append_assoc, headD_first hne1, hsl1]
    have hfirst0 : (slice inp b e ++ slice inp e' d).headD 0 = inp.getD b 0 := by
      rw [headD_first hne1, hsl1]
    have hbr : inp.getD b 0 = if m then LCB else LBR := by rw [List.getD_eq_getElem?_getD, hb]; rfl
    refine ⟨⟨⟨?_, ?_, ?_⟩, ⟨?_, ?_, ?_⟩, ?_⟩, ?_, ?_, ?_, ?_, ?_⟩
    · rw [headD_first hne, hsl0]; exact w1
    · rw [headD_first hne, hsl0]; exact w2
    · rw [headD_first hne, hsl0]; exact w3
    · rw [hfirst]; exact w1
    · rw [hfirst]; exact w2
    · rw [hfirst]; exact w3
    · intro a k lo q h1 h2 h3 h4
      rw [← List.append_assoc, hcut] at h1 h2 h4
      rw [hlb] at h3
      have h5 := hkeys a k lo q h1 h2 h3 h4
      refine ⟨k, q, ?_⟩
      rw [← List.append_assoc, e2, e3]
      exact Inner.firstKey (y := inp.drop e) (by rw [List.take_append_drop]; exact h4) (by omega) (.inl (by omega))
    · rw [hfirst0]; exact w3
    · intro h
      rw [hfirst0]
      exact ⟨by rw [hbr]; cases m <;> decide, by rw [hbr]; cases m <;> decide, hctl h⟩
    · rw [hcut, hld]; exact hline
    · intro h
      rw [hcut, hlb]
      unfold atBlock
      rw [hbr]
      cases m <;> decide
    · intro h α V v lo hi hs
      rw [hcut] at hs
      rw [hlb]
      rintro rfl
      exact hs.notNext (hap (by cases s <;> first | rfl | cases h)) (by omega) w1 w2 (hctl h)
  · rw [Tree.erase]
    rw [hind] at hnew
    have hlen : (inp.take e ++ slice inp e' d).length = e + (d - e') := by
      rw [List.length_append, slice_length hd, hle]
    rw [hlen]
    exact hnew

theorem Laid.removeF {inp : Bytes} {doc : Document} {t : Tree Nat} {e0 : Nat} (h : Laid inp doc t e0) (hh : hasHeader inp = false) (hf : followed inp = true)
    (hc : noWsComma inp = true ∨ LBR ∉ inp) (hu : validUtf8 inp = true ∨ HASH ∉ inp) {x : Nat} (hx : Live doc x) {C : Coll} {tr : Bool} {w : Bytes} (hC : doc.data.mapping x = .ok C)
    (hk : C.kind = .inline tr w) {L : List (Bytes × Nat)} (hL : mapEntries doc.data x = .ok L) {key : Bytes} {n : Nat} (hkey : L.findIdx? (·.1 == key) = some n) (R : Removable n L.length tr w)
    (hz : ∀ v zt, L[n]?.map (·.2) = some v → valueText doc.data v = .ok zt → zt.headD 0 ≠ PIPE ∧ zt.headD 0 ≠ GT)
    (hz' : ∀ v zt, 0 < n → L[n - 1]?.map (·.2) = some v → valueText doc.data v = .ok zt → zt.headD 0 ≠ PIPE ∧ zt.headD 0 ≠ GT ∧ zt.headD 0 ≠ 0) :
    ∃ r s b e e' d E i T, b < e ∧ e < e' ∧ e' < d ∧ d ≤ inp.length ∧ valueText doc.data x = .ok (slice inp b d) ∧ ReadFrom inp doc x b d ∧
      C.items[n]? = some i ∧ mapEntryText doc.data i = .ok T ∧ slice inp e e' = (if 0 < n then [COMMA] else []) ++ T ++ (if n = 0 ∧ 1 < L.length then [COMMA] else []) ∧
      inp.drop r = skipBlank false inp ∧ Within inp doc.data.view .block doc.root r s x b ∧ Outer inp doc.data.view .block doc.root r s x b d E ∧
      ((∀ g, FullGap inp E g → NL ∈ slice inp d g ∨ g = inp.length) → KeysEnd inp b → (s = .flow → Apart inp b) →
        ∃ doc', doc.edit x (.remove key) = .ok doc' ∧ (∃ t' e1, Laid (inp.take e ++ inp.drop e') doc' t' e1) ∧
          ∀ l, Reads doc.data x (.map l) → ∃ l', Reads doc'.data x (.map l') ∧ l'.list = l.list.eraseIdx n) := by
  have ht := h.laid.holds
  obtain ⟨pre, ind, kind, items, p, hfx, ha, hLi⟩ := ht.mapNode hx hL
  have hC0 := hC
  rw [mapping_of ha.get] at hC0
  have hids : C.items = items.ids := by rw [← Except.ok.inj hC0]
  have hi : items.indexOf key = some n := by rw [indexOf_findIdx, ← hLi, hkey]
  have hlt : n < items.ids.length := Items.indexOf_lt hi
  have hlen : C.items.length = L.length := by rw [hids, hLi, List.length_map, Items.length_pairs]
  have hval : ∀ j, valueIn true doc.data x j = L[j]?.map (·.2) := by
    intro j
    rw [valueIn, if_pos rfl, hL]
  obtain ⟨pre, items1, r, s, b, e, e', d, E, T, hu, -, h1, h2, h3, h4, h5, h6, h7, h8, h9, h10, h11, h12⟩ := h.cutF hh hf hc hu hx (m := true) hC hk (k := n) (by rw [hlen]; exact R)
    (fun v zt h => hz v zt (by rw [← hval]; exact h)) (fun v zt h0 h => hz' v zt h0 (by rw [← hval]; exact h)) (by rw [hids]; exact hlt)
  rw [hu] at hfx
  cases hfx
  obtain ⟨ip, ikey, v, e1, e2, e3, e4⟩ := ha.rep.node.2.item (.inline tr w) (List.getElem?_eq_getElem hlt)
  have hnodup : v.allIds.Nodup := by
    obtain ⟨_, hv⟩ := ht.at (Tree.find_trans ht.nodup hu (Tree.find_pair ha.nodup e1))
    exact hv.nodup
  have hent : mapEntryText doc.data items.ids[n] = .ok (itemText true (.inline tr w) ip ikey v) := by
    simp [mapEntryText, mappingItem_of e3, pre_of e3, pre_of e4.head, e4.text hnodup, bind, Except.bind, pure,
      Except.pure, itemText, COLON]
  rw [e2] at h7
  rw [Option.some.inj h7] at hent
  refine ⟨r, s, b, e, e', d, E, _, T, h1, h2, h3, h4, h5, h6, by rw [hids]; exact List.getElem?_eq_getElem hlt, hent, by rw [← hlen]; exact h8, h9, h10, h11, ?_⟩
  intro hline hkeys hap
  obtain ⟨b2, d2, items', g1, g2, g3⟩ := ht.removeKey hu key
  rw [hi] at g2
  cases g2
  obtain ⟨e5, hlaid⟩ := h12 ⟨doc.suffix, doc.root, d2⟩ rfl g3 hline hkeys hap
  refine ⟨_, edit_remove (asMapping_of ha.rep) g1, ⟨_, e5, hlaid⟩, ?_⟩
  intro l hl
  obtain ⟨p', ha'⟩ := g3.at (Tree.find_upd hu rfl)
  have c1 : Content.map l = .map items.entriesC := Reads.unique hl (by have := Tree.content_reads ha.rep; exact this)
  cases c1
  exact ⟨_, (by have := Tree.content_reads ha'.rep; exact this), Items.entriesC_eraseIdx items n⟩

theorem Laid.removeAtF {inp : Bytes} {doc : Document} {t : Tree Nat} {e0 : Nat} (h : Laid inp doc t e0) (hh : hasHeader inp = false) (hf : followed inp = true)
    (hc : noWsComma inp = true ∨ LBR ∉ inp) (hu : validUtf8 inp = true ∨ HASH ∉ inp) {x : Nat} (hx : Live doc x) {C : Coll} {tr : Bool} {w : Bytes} (hC : doc.data.sequence x = .ok C)
    (hk : C.kind = .inline tr w) {L : List Nat} (hL : seqValues doc.data x = .ok L) {n : Nat} (hn : n < L.length) (R : Removable n L.length tr w)
    (hz : ∀ v zt, L[n]? = some v → valueText doc.data v = .ok zt → zt.headD 0 ≠ PIPE ∧ zt.headD 0 ≠ GT)
    (hz' : ∀ v zt, 0 < n → L[n - 1]? = some v → valueText doc.data v = .ok zt → zt.headD 0 ≠ PIPE ∧ zt.headD 0 ≠ GT ∧ zt.headD 0 ≠ 0) :
    ∃ r s b e e' d E i T, b < e ∧ e < e' ∧ e' < d ∧ d ≤ inp.length ∧ valueText doc.data x = .ok (slice inp b d) ∧ ReadFrom inp doc x b d ∧
      C.items[n]? = some i ∧ seqEntryText doc.data false i = .ok T ∧ slice inp e e' = (if 0 < n then [COMMA] else []) ++ T ++ (if n = 0 ∧ 1 < L.length then [COMMA] else []) ∧
      inp.drop r = skipBlank false inp ∧ Within inp doc.data.view .block doc.root r s x b ∧ Outer inp doc.data.view .block doc.root r s x b d E ∧
      ((∀ g, FullGap inp E g → NL ∈ slice inp d g ∨ g = inp.length) → KeysEnd inp b → (s = .flow → Apart inp b) →
        ∃ doc', doc.edit x (.removeAt n) = .ok doc' ∧ (∃ t' e1, Laid (inp.take e ++ inp.drop e') doc' t' e1) ∧
          ∀ l, Reads doc.data x (.seq l) → ∃ l', Reads doc'.data x (.seq l') ∧ l'.list = l.list.eraseIdx n) := by
  have ht := h.laid.holds
  obtain ⟨u0, hu0⟩ := (ht.live_iff x).1 hx
  obtain ⟨pre0, items0, rfl⟩ := collAt_node (m := false) ht hu0 hC
  obtain ⟨p, ha⟩ := ht.at hu0
  have hids : C.items = items0.ids := by
    have := sequence_of ha.get
    rw [hC] at this
    rw [Except.ok.inj this]
  have hLi : L = items0.pairs.map fun q => q.2.id := by
    have := seqValues_node ha.rep
    rw [hL] at this
    exact Except.ok.inj this
  have hlen : C.items.length = L.length := by rw [hids, hLi, List.length_map, Items.length_pairs]
  have hlt : n < items0.ids.length := by rw [← hids, hlen]; exact hn
  have hval : ∀ j, valueIn false doc.data x j = L[j]? := by
    intro j
    rw [valueIn, if_neg (by decide), hL]
  obtain ⟨pre, items, r, s, b, e, e', d, E, T, hu, hind, h1, h2, h3, h4, h5, h6, h7, h8, h9, h10, h11, h12⟩ := h.cutF hh hf hc hu hx (m := false) hC hk (k := n) (by rw [hlen]; exact R)
    (fun v zt h => hz v zt (by rw [← hval]; exact h)) (fun v zt h0 h => hz' v zt h0 (by rw [← hval]; exact h)) (by rw [hids]; exact hlt)
  rw [hk, hind] at hu0 ha
  rw [hu] at hu0
  cases hu0
  obtain ⟨ip, ikey, v, e1, e2, e3, e4⟩ := ha.rep.node.2.item (.inline tr w) (List.getElem?_eq_getElem hlt)
  have hnodup : v.allIds.Nodup := by
    obtain ⟨_, hv⟩ := ht.at (Tree.find_trans ht.nodup hu (Tree.find_pair ha.nodup e1))
    exact hv.nodup
  have hent : seqEntryText doc.data false items0.ids[n] = .ok (itemText false (.inline tr w) ip ikey v) := by
    simp [seqEntryText, sequenceItem_of e3, pre_of e3, pre_of e4.head, e4.text hnodup, bind, Except.bind, pure,
      Except.pure, itemText]
  rw [e2] at h7
  rw [Option.some.inj h7] at hent
  refine ⟨r, s, b, e, e', d, E, _, T, h1, h2, h3, h4, h5, h6, by rw [hids]; exact List.getElem?_eq_getElem hlt, hent, by rw [← hlen]; exact h8, h9, h10, h11, ?_⟩
  intro hline hkeys hap
  obtain ⟨d2, g1, g3⟩ := ht.removeAt hu n
  obtain ⟨e5, hlaid⟩ := h12 ⟨doc.suffix, doc.root, d2⟩ rfl g3 hline hkeys hap
  refine ⟨_, edit_removeAt (asSequence_of ha.rep) g1, ⟨_, e5, hlaid⟩, ?_⟩
  intro l hl
  obtain ⟨p', ha'⟩ := g3.at (Tree.find_upd hu rfl)
  have c1 : Content.seq l = .seq items0.elemsC := Reads.unique hl (by have := Tree.content_reads ha.rep; exact this)
  cases c1
  exact ⟨_, (by have := Tree.content_reads ha'.rep; exact this), Items.elemsC_eraseIdx items0 n⟩

end Verif
