import Verif.Cut
/-
An item that is not the first one removed from a block collection anywhere in a document that was read: what is written is read back.
-/
namespace Verif

/-- The value with number `n` of a collection. -/
def valueIn (m : Bool) (d : Data) (x n : Nat) : Option Nat :=
  if m then match mapEntries d x with | .ok L => L[n]?.map (·.2) | .error _ => none else match seqValues d x with | .ok L => L[n]? | .error _ => none

theorem valueIn_node {doc : Document} {x : Nat} {pre : Bytes} {m : Bool} {ind : Nat} {k : CollKind} {items : Items Nat} {p : Option Nat} (ha : At doc x (.node x pre m ind k items) p) (n : Nat) :
    valueIn m doc.data x n = items.pairs[n]?.map (·.2.id) := by
  unfold valueIn
  cases m with
  | true =>
    rw [mapEntries_node ha.rep]
    simp [List.getElem?_map, Function.comp_def]
  | false =>
    rw [seqValues_node ha.rep]
    simp [List.getElem?_map]

theorem Items.erase_pairs : ∀ items : Items Nat, items.erase.pairs = items.pairs.map fun p => (p.1, p.2.erase)
  | .nil => rfl
  | .cons _ _ _ _ rest => by simp [Items.erase, Items.pairs, Items.erase_pairs rest]

theorem Items.erase_eraseIdx : ∀ (items : Items Nat) (n : Nat), (items.eraseIdx n).erase = items.erase.eraseIdx n
  | .nil, _ => by simp [Items.eraseIdx, Items.erase]
  | .cons _ _ _ _ rest, 0 => by simp [Items.eraseIdx, Items.erase]
  | .cons _ _ _ _ rest, n + 1 => by simp [Items.eraseIdx, Items.erase, Items.erase_eraseIdx rest n]


/-- An item removed from a block collection. -/
theorem Laid.cut {inp : Bytes} {doc : Document} {t : Tree Nat} {e0 : Nat} (h : Laid inp doc t e0) (hh : hasHeader inp = false) (hf : followed inp = true)
    (hc : noWsComma inp = true ∨ LBR ∉ inp) (hu : validUtf8 inp = true ∨ HASH ∉ inp) {x : Nat} (hx : Live doc x) {old : Bytes} (ho : valueText doc.data x = .ok old) (hn : old.headD 0 ≠ 0)
    {m : Bool} {C : Coll} (hC : collAt m doc.data x = .ok C) (hk : C.kind = .block) {n : Nat} (hlen : n + 1 < C.items.length) :
    ∃ pre items b e e' d w kv', t.find x = some (.node x pre m C.indent .block items) ∧ LiesTo inp (.node () pre m C.indent .block items.erase) d ∧ items.pairs[n + 1]? = some kv' ∧
      LiesTo inp w.erase e ∧ LiesTo inp kv'.2.erase e' ∧ (∃ k, items.pairs[n]? = some (k, w)) ∧ b < e ∧ e < e' ∧ e' ≤ d ∧ d ≤ inp.length ∧ old = slice inp b d ∧ ReadFrom inp doc x b d ∧
      C.indent = columnAt inp b ∧ valueIn m doc.data x n = some w.id ∧ (items.texts m .block)[n + 1]? = some (slice inp e e') ∧
      ∀ doc' q f, doc'.suffix = doc.suffix → Holds doc' (Tree.upd x (.node x pre m C.indent .block (items.eraseIdx (n + 1))) t) →
        FullGap inp e' q → inp[e']? = some NL → endsLine (inp.drop d) = true → KeysEnd inp e → (f = true → columnAt inp q ≤ C.indent) → Closes doc.data (columnAt inp q) (inp[q]? != some DASH) f w.id →
        (∀ w', EndsWith doc.data w.id w' → Closes doc.data (columnAt inp q) (inp[q]? != some DASH) f w') → (f = true → ∃ k r, FirstKey inp k q r) →
        ∃ e1, Laid (inp.take e ++ inp.drop e') doc' (Tree.upd x (.node x pre m C.indent .block (items.eraseIdx (n + 1))) t) e1 := by
  have A := allows_tidied hf hc hu
  have ht := h.laid.holds
  obtain ⟨u, r, s, b0, b, d, E, hu, hL, hg, -, -, hbd, hd, w1, w2, w3, hold, -, hrf, -, hE, hall⟩ := h.swap hh hf hc hu hx ho hn
  obtain ⟨pre, items, rfl⟩ := collAt_node ht hu hC
  rw [hk] at hu hL hall
  obtain ⟨p, ha⟩ := ht.at hu
  have hids : C.items = items.ids := by
    have hg := ha.get
    cases m with
    | true =>
      have hC : doc.data.mapping x = .ok C := hC
      rw [mapping_of hg] at hC; rw [← Except.ok.inj hC]
    | false =>
      have hC : doc.data.sequence x = .ok C := hC
      rw [sequence_of hg] at hC; rw [← Except.ok.inj hC]
  have hlp : n + 1 < items.pairs.length := by
    rw [hids] at hlen
    have : items.ids.length = items.pairs.length := (Items.length_pairs items).symm
    omega
  have hrender : items.render m .block = slice inp b d := by
    have := ha.text.symm.trans ho
    rw [← hold, ← Except.ok.inj this]
    simp [Tree.render, openOf, closeOf]
  rw [Tree.erase] at hL
  obtain ⟨e, e', o1, o2, o3, key, v, k1, k2, k3, -, k5, kt, kv, kv', hs, hind, k6, k7, k8, k9, k10, k11⟩ := cut_lies A hf hL hg (n := n) (by rw [Items.erase_pairs]; simpa using hlp)
  rw [Items.erase_render, hrender, ← slice_append (Nat.le_of_lt k1) (by omega : e ≤ d), ← slice_append (Nat.le_of_lt k2) k3] at k6
  obtain ⟨rfl, e1⟩ := Tidied.cut k8 (k9.append k10) k6.symm
  obtain ⟨rfl, rfl⟩ := Tidied.cut k9 k10 e1
  rw [← Items.erase_eraseIdx, Items.erase_render] at k7
  rw [Items.erase_pairs, List.getElem?_map] at k5
  obtain ⟨⟨key', w⟩, hw', hv⟩ := Option.map_eq_some_iff.1 k5
  cases hv
  obtain ⟨_, kv1, kv2⟩ := kv'
  rw [Items.erase_pairs, List.getElem?_map] at kv1
  obtain ⟨kv', hkv', rfl⟩ := Option.map_eq_some_iff.1 kv1
  refine ⟨pre, items, b, e, e', d, w, kv', hu, ⟨s, b0, hs, hL⟩, hkv', kv, kv2, ⟨_, hw'⟩, k1, k2, k3, hd, hold, hrf, hind, by rw [valueIn_node ha, hw']; rfl, by rw [← Items.rowTexts_texts, ← Items.erase_rowTexts]; exact kt, ?_⟩
  intro doc' q f hsuf hh2 hq hnl hline hkeys hcol hcl hcl' hfirst
  have htail : w.erase.tailOk (columnAt inp q) (inp[q]? != some DASH) f C.indent :=
    Tree.closed ht w C.indent hcol (Tree.find_trans ht.nodup hu (Tree.find_pair ha.nodup hw')) hcl hcl'
  have hlies := k11 q _ f hq hnl hkeys (by intro h; rw [h]; decide) htail hfirst
  have e1 : (Tree.node x pre m C.indent .block (items.eraseIdx (n + 1))).render = slice inp b e ++ slice inp e' d := by
    rw [← k7]
    simp [Tree.render, openOf, closeOf]
  have e2 : inp.take b ++ (slice inp b e ++ slice inp e' d) = inp.take e ++ slice inp e' d := by
    rw [← List.append_assoc]
    congr 1
    have h1 : inp.take b = slice inp 0 b := by simp [slice]
    rw [h1, slice_append (Nat.zero_le _) (Nat.le_of_lt k1)]
    simp [slice]
  have e3 : inp.take e ++ slice inp e' d ++ inp.drop d = inp.take e ++ inp.drop e' := by
    rw [List.append_assoc, ← slice_drop (inp := inp) (d := d), slice_append k3 hd, slice_drop]
  have hE' : E = d := by
    rcases hE with h | h
    · exact h.2
    · exact absurd h.1 hs
  have hfl : s.inline = false := by cases s <;> first | rfl | exact absurd rfl hs
  have hlb : (inp.take b).length = b := by rw [List.length_take]; omega
  have hcut := cut3 (inp := inp) (Nat.le_of_lt hbd)
  have hld : (inp.take b ++ slice inp b d).length = d := by rw [List.length_append, slice_length hd, hlb]; omega
  have hsl0 : (slice inp b d).headD 0 = inp.getD b 0 := slice_headD hbd
  have hsl1 : (slice inp b e).headD 0 = inp.getD b 0 := slice_headD k1
  have hne : (slice inp b d).headD 0 ≠ 0 := by rw [hsl0]; exact w3
  have hne1 : (slice inp b e).headD 0 ≠ 0 := by rw [hsl1]; exact w3
  have hl2 := fun g => endsLine_full (g := g) hd hline
  have hfin := hall doc' (.node x pre m C.indent .block (items.eraseIdx (n + 1))) rfl rfl hsuf hh2
  have hlen' : (inp.take e ++ slice inp e' d).length = e + (d - e') := by rw [List.length_append, List.length_take, slice_length hd]; omega
  rw [e1, e2, e3] at hfin
  refine hfin ?_ ?_
  · refine ⟨⟨⟨?_, ?_, ?_⟩, ⟨?_, ?_, ?_⟩, ?_⟩, ?_, ?_, ?_, ?_, ?_⟩
    · rw [headD_first hne, hsl0]; exact w1
    · rw [headD_first hne, hsl0]; exact w2
    · rw [headD_first hne, hsl0]; exact w3
    · rw [List.append_assoc, headD_first hne1, hsl1]; exact w1
    · rw [List.append_assoc, headD_first hne1, hsl1]; exact w2
    · rw [List.append_assoc, headD_first hne1, hsl1]; exact w3
    · intro a k lo q h1 h2 h3 h4
      rw [← List.append_assoc, hcut] at h1 h2 h4
      rw [hlb] at h3
      obtain ⟨k', q', h5⟩ := hkeys.stay (by omega) (W := inp.drop e') (by rw [List.headD_eq_head?_getD, List.head?_drop, hnl]; decide) a k lo q (by rw [List.take_append_drop]; exact h1)
        (by rw [List.take_append_drop]; exact h2) (by rw [List.length_take]; omega) (by rw [List.take_append_drop]; exact h4)
      exact ⟨k', q', by rw [← List.append_assoc, e2, e3]; exact h5⟩
    · rw [headD_first hne1]; exact hne1
    · intro h; rw [hfl] at h; cases h
    · rw [hcut, hld, hE']; exact hl2
    · intro h; rw [hfl] at h; cases h
    · intro h; rw [hfl] at h; cases h
  · rw [Tree.erase, Items.erase_eraseIdx, hlen']
    exact hlies

end Verif
