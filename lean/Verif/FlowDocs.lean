import Verif.Flow
import Verif.LaidEdits
/-
A new item at the end of an inline collection anywhere in a document that was read: what is written is read back.  Used in proofs only; nothing here is part of the Rust code.
-/
namespace Verif

theorem addCell_render {m tr : Bool} {w : Bytes} {items : Items Nat} (hn : items.isNil = false) (i v : Nat) (key : RStr) (sep : Bytes) (sc : Scalar) :
    (items.append (.cons i (addPre 0 items) key (.leaf v sep sc) .nil)).render m (.inline tr w) = items.render m (.inline tr w) ++ newCell m key sep sc.write := by
  have e0 : addPre 0 items = [NL] := by rw [addPre, hn]; rfl
  rw [e0]
  have hl : lossy [NL] = [NL] := by decide
  have last : (Items.cons i [NL] key (.leaf v sep sc) .nil).render m (.inline tr w) = NL :: (cellHead m key ++ sep ++ sc.write) := by
    cases m <;> simp [Items.render, Tree.render, Tree.pre, sepOf, cellHead, hl, Items.isNil]
  have all : ∀ its : Items Nat, its.isNil = false →
      (its.append (.cons i [NL] key (.leaf v sep sc) .nil)).render m (.inline tr w) = its.render m (.inline tr w) ++ COMMA :: NL :: (cellHead m key ++ sep ++ sc.write) := by
    intro its
    induction its using Items.rec (motive_1 := fun _ => True) with
    | leaf => trivial
    | node => trivial
    | nil => intro h; cases h
    | cons i' p' k' v' rest _ ih =>
      intro _
      cases rest with
      | nil =>
        rw [Items.append, render_cons, render_cons, Items.append, last]
        simp [sepOf, Items.isNil, Items.render]
      | cons i2 p2 k2 v2 r2 =>
        rw [Items.append, render_cons, render_cons, ih rfl]
        simp [sepOf, Items.isNil, Items.append]
  exact all items hn

theorem Items.lastV_erase : ∀ items : Items Nat, items.erase.lastV = items.lastV.map Tree.erase
  | .nil => rfl
  | .cons _ _ _ _ .nil => rfl
  | .cons _ _ _ _ (.cons i p k v r) => by
    have := Items.lastV_erase (.cons i p k v r)
    rw [Items.erase] at this ⊢
    rw [Items.erase, Items.lastV]
    exact this

theorem Items.lastV_pairs : ∀ (items : Items Nat) {k : RStr} {v : Tree Nat}, items.pairs.getLast? = some (k, v) → items.lastV = some v
  | .nil, _, _, h => by cases h
  | .cons _ _ _ _ .nil, _, _, h => by cases h; rfl
  | .cons _ _ _ _ (.cons i p k' v' r), k, v, h => by
    refine Items.lastV_pairs (.cons i p k' v' r) (k := k) ?_
    simp only [Items.pairs] at h ⊢
    rw [List.getLast?_cons_cons] at h
    exact h

/-- A new item at the end of an inline collection. -/
theorem Laid.cell {inp : Bytes} {doc : Document} {t : Tree Nat} {e0 : Nat} (h : Laid inp doc t e0) (hh : hasHeader inp = false) (hf : followed inp = true)
    (hc : noWsComma inp = true ∨ LBR ∉ inp) (hu : validUtf8 inp = true ∨ HASH ∉ inp) {x : Nat} (hx : Live doc x) {m tr : Bool} {w : Bytes} {C : Coll} (hC : collAt m doc.data x = .ok C)
    (hk : C.kind = .inline tr w) (hz : ∀ pre items, t.find x = some (.node x pre m C.indent C.kind items) → ∃ z : Tree Nat, items.lastV = some z ∧ z.render.headD 0 ≠ 0 ∧ z.render.headD 0 ≠ PIPE ∧ z.render.headD 0 ≠ GT) :
    ∃ pre items r s b e d E, t.find x = some (.node x pre m 0 (.inline tr w) items) ∧ items.isNil = false ∧ C.indent = 0 ∧ b < e ∧ e < d ∧ d ≤ inp.length ∧ valueText doc.data x = .ok (slice inp b d) ∧ ReadFrom inp doc x b d ∧
      closeOf (.inline tr w) (close m) = slice inp e d ∧ inp.drop r = skipBlank false inp ∧ 
      Within inp doc.data.view .block doc.root r s x b ∧ Outer inp doc.data.view .block doc.root r s x b d E ∧
      ∀ doc' i key v sep sc, doc'.suffix = doc.suffix →
        Holds doc' (Tree.upd x (.node x pre m 0 (.inline tr w) (items.append (.cons i (addPre 0 items) key (.leaf v sep sc) .nil))) t) →
        (∀ g, FullGap inp E g → NL ∈ slice inp d g ∨ g = inp.length) → KeysEnd inp b → (s = .flow → Apart inp b) → CellOk m key sep sc.write (inp.drop e) sc.value →
        ∃ e', Laid (inp.take e ++ newCell m key sep sc.write ++ inp.drop e) doc'
          (Tree.upd x (.node x pre m 0 (.inline tr w) (items.append (.cons i (addPre 0 items) key (.leaf v sep sc) .nil))) t) e' := by
  have ht := h.laid.holds
  have A := allows_tidied hf hc hu
  obtain ⟨u0, hu0⟩ := (ht.live_iff x).1 hx
  obtain ⟨pre, items, rfl⟩ := collAt_node ht hu0 hC
  obtain ⟨p, ha⟩ := ht.at hu0
  rw [hk] at ha
  have ho := ha.text
  have hrend : Tree.render (.node x pre m C.indent (.inline tr w) items) =
      openOf (.inline tr w) (if m then LCB else LBR) ++ items.render m (.inline tr w) ++ closeOf (.inline tr w) (if m then RCB else RBR) := by
    simp [Tree.render]
  have hn : (Tree.render (.node x pre m C.indent (.inline tr w) items)).headD 0 ≠ 0 := by
    rw [hrend]
    cases m <;> simp [openOf] <;> decide
  obtain ⟨u, r, s, b0, b, d, E, hu', hL, hg, hg0, hr, hbd, hd, w1, w2, w3, hold, hctl, hrf, hwi, hE, hall⟩ := h.swap hh hf hc hu hx ho hn
  rw [hu0, hk] at hu'
  obtain rfl := Option.some.inj hu'
  rw [hk] at hu0
  obtain ⟨z, hz1, z0, z1, z2⟩ := hz pre items (by rw [hk]; exact hu0)
  have hnil : items.isNil = false := by cases items with | nil => cases hz1 | cons => rfl
  rw [Tree.erase] at hL
  have hrend' := hrend
  rw [hold] at hrend'
  obtain ⟨hind, hb, e, be, ed, q1, q2, hnew⟩ := hL.add A hf hg (z := z.erase) (by rw [Items.lastV_erase, hz1]; rfl) (by rw [Tree.erase_render]; exact z0) (by rw [Tree.erase_render]; exact z1)
    (by rw [Tree.erase_render]; exact z2) (by rw [Items.erase_render]; exact hrend'.symm)
  rw [Items.erase_render] at q1
  rw [hind] at hu0 hall hL
  have hclose : (if m then RCB else RBR) = close m := rfl
  refine ⟨pre, items, r, s, b, e, d, E, hu0, hnil, hind, be, ed, hd, by rw [ho, hold], hrf, by rw [← hclose]; exact q2, hr, hwi, hE, ?_⟩
  intro doc' i key v sep sc hsuf hh2 hline hkeys hap R
  have e1 : (Tree.node x pre m 0 (.inline tr w) (items.append (.cons i (addPre 0 items) key (.leaf v sep sc) .nil))).render = slice inp b e ++ newCell m key sep sc.write ++ slice inp e d := by
    rw [Tree.render, addCell_render hnil, ← q1, ← q2]
    simp
  have hlb : (inp.take b).length = b := by rw [List.length_take]; omega
  have hle : (inp.take e).length = e := by rw [List.length_take]; omega
  have e2 : inp.take b ++ (slice inp b e ++ newCell m key sep sc.write ++ slice inp e d) = inp.take e ++ newCell m key sep sc.write ++ slice inp e d := by
    rw [← List.append_assoc, ← List.append_assoc]
    congr 2
    have h1 : inp.take b = slice inp 0 b := by simp [slice]
    rw [h1, slice_append (Nat.zero_le _) (Nat.le_of_lt be)]
    simp [slice]
  have e3 : inp.take e ++ newCell m key sep sc.write ++ slice inp e d ++ inp.drop d = inp.take e ++ newCell m key sep sc.write ++ inp.drop e := by
    rw [List.append_assoc _ (slice inp e d)]
    congr 1
    have h1 : slice inp e inp.length = inp.drop e := slice_drop
    rw [← h1, ← slice_append (a := e) (b := d) (by omega) hd, slice_drop]
  have hcut := cut3 (inp := inp) (Nat.le_of_lt hbd)
  have hld : (inp.take b ++ slice inp b d).length = d := by rw [List.length_append, slice_length hd, hlb]; omega
  have hsl0 : (slice inp b d).headD 0 = inp.getD b 0 := slice_headD hbd
  have hne : (slice inp b d).headD 0 ≠ 0 := by rw [hsl0]; exact w3
  have hsl1 : (slice inp b e).headD 0 = inp.getD b 0 := slice_headD be
  have hne1 : (slice inp b e).headD 0 ≠ 0 := by rw [hsl1]; exact w3
  have hfin := hall doc' (.node x pre m 0 (.inline tr w) (items.append (.cons i (addPre 0 items) key (.leaf v sep sc) .nil))) rfl rfl hsuf hh2
  rw [e1, e2, e3] at hfin
  refine hfin ?_ ?_
  · have hfirst : ∀ z, (slice inp b e ++ newCell m key sep sc.write ++ slice inp e d ++ z).headD 0 = inp.getD b 0 := fun z => by
      rw [List.append_assoc, List.append_assoc, headD_first hne1, hsl1]
    have hfirst0 : (slice inp b e ++ newCell m key sep sc.write ++ slice inp e d).headD 0 = inp.getD b 0 := by
      rw [List.append_assoc, headD_first hne1, hsl1]
    have hbr : inp.getD b 0 = if m then LCB else LBR := by rw [List.getD_eq_getElem?_getD, hb]; rfl
    refine ⟨⟨⟨?_, ?_, ?_⟩, ⟨?_, ?_, ?_⟩, ?_⟩, ?_, ?_, ?_, ?_, ?_⟩
    · rw [headD_first hne, hsl0]; exact w1
    · rw [headD_first hne, hsl0]; exact w2
    · rw [headD_first hne, hsl0]; exact w3
    · rw [hfirst]; exact w1
    · rw [hfirst]; exact w2
    · rw [hfirst]; exact w3
    · intro a k lo q h1 h2 h3 h4
      rw [← List.append_assoc, hcut] at h1 h2 h4
      rw [hlb] at h3
      have h5 := hkeys a k lo q h1 h2 h3 h4
      refine ⟨k, q, ?_⟩
      rw [← List.append_assoc, e2, e3, List.append_assoc]
      exact Inner.firstKey (y := inp.drop e) (by rw [List.take_append_drop]; exact h4) (by omega) (.inl (by omega))
    · rw [hfirst0]; exact w3
    · intro h
      rw [hfirst0]
      exact ⟨by rw [hbr]; cases m <;> decide, by rw [hbr]; cases m <;> decide, hctl h⟩
    · rw [hcut, hld]; exact hline
    · intro h
      rw [hcut, hlb]
      unfold atBlock
      rw [hbr]
      cases m <;> decide
    · intro h α V v lo hi hs
      rw [hcut] at hs
      rw [hlb]
      rintro rfl
      exact hs.notNext (hap (by cases s <;> first | rfl | cases h)) (by omega) w1 w2 (hctl h)
  · rw [Tree.erase]
    have : (items.append (.cons i (addPre 0 items) key (.leaf v sep sc) .nil)).erase = items.erase.append (.cons () (addPre 0 items) key (.leaf () sep sc) .nil) := Items.erase_add items
    have hap : addPre 0 items = [NL] := by rw [addPre, hnil]; rfl
    rw [this, hap]
    have := hnew key sep sc R
    rw [hind] at this
    have hlen : (inp.take e ++ newCell m key sep sc.write ++ slice inp e d).length = d + (newCell m key sep sc.write).length := by
      rw [List.length_append, List.length_append, slice_length hd, hle]; omega
    rw [hlen]
    exact this

/-- The last value of an inline collection, found with the API. -/
def lastFlow (m : Bool) (d : Data) (x : Nat) : Except Stop (Option Nat) :=
  if m then (mapEntries d x).map (fun L => L.getLast?.map (·.2)) else (seqValues d x).map List.getLast?

theorem lastFlow_map {d : Data} {x : Nat} {L : List (Bytes × Nat)} (hL : mapEntries d x = .ok L) {lk : Bytes} {z : Nat} (hz : L.getLast? = some (lk, z)) : lastFlow true d x = .ok (some z) := by
  rw [lastFlow, if_pos rfl, hL]
  show Except.ok (L.getLast?.map _) = _
  rw [hz]
  rfl

theorem lastFlow_seq {d : Data} {x : Nat} {L : List Nat} (hL : seqValues d x = .ok L) {z : Nat} (hz : L.getLast? = some z) : lastFlow false d x = .ok (some z) := by
  rw [lastFlow, if_neg (by decide), hL]
  show Except.ok L.getLast? = _
  rw [hz]

theorem lastFlow_node {doc : Document} {x : Nat} {pre : Bytes} {m : Bool} {ind : Nat} {k : CollKind} {items : Items Nat} {p : Option Nat} (ha : At doc x (.node x pre m ind k items) p) {z : Nat}
    (h : lastFlow m doc.data x = .ok (some z)) : ∃ key v, items.pairs.getLast? = some (key, v) ∧ v.id = z := by
  unfold lastFlow at h
  cases m with
  | true =>
    rw [if_pos rfl, mapEntries_node ha.rep] at h
    have h := Except.ok.inj h
    dsimp only at h
    rw [List.getLast?_map] at h
    cases hl : items.pairs.getLast? with
    | none => rw [hl] at h; cases h
    | some kv => rw [hl] at h; exact ⟨kv.1, kv.2, rfl, Option.some.inj h⟩
  | false =>
    rw [if_neg (by decide), seqValues_node ha.rep] at h
    have h := Except.ok.inj h
    rw [List.getLast?_map] at h
    cases hl : items.pairs.getLast? with
    | none => rw [hl] at h; cases h
    | some kv => rw [hl] at h; exact ⟨kv.1, kv.2, rfl, Option.some.inj h⟩

/-- What `Laid.cell` needs of the last value. -/
theorem Holds.lastFlow {doc : Document} {t : Tree Nat} (ht : Holds doc t) {x z : Nat} {m : Bool} {C : Coll} (hz : lastFlow m doc.data x = .ok (some z)) {zt : Bytes} (hzt : valueText doc.data z = .ok zt)
    (z0 : zt.headD 0 ≠ 0) (z1 : zt.headD 0 ≠ PIPE) (z2 : zt.headD 0 ≠ GT) :
    ∀ pre items, t.find x = some (.node x pre m C.indent C.kind items) → ∃ z : Tree Nat, items.lastV = some z ∧ z.render.headD 0 ≠ 0 ∧ z.render.headD 0 ≠ PIPE ∧ z.render.headD 0 ≠ GT := by
  intro pre items hu
  obtain ⟨p, ha⟩ := ht.at hu
  obtain ⟨key, v, hl, rfl⟩ := lastFlow_node ha hz
  refine ⟨v, Items.lastV_pairs items hl, ?_⟩
  rw [getLast?_get] at hl
  obtain ⟨p', ha'⟩ := ht.at (Tree.find_trans ht.nodup hu (Tree.find_pair ha.nodup hl))
  obtain rfl := Except.ok.inj (ha'.text.symm.trans hzt)
  exact ⟨z0, z1, z2⟩

theorem Laid.insertFlow {inp : Bytes} {doc : Document} {t : Tree Nat} {e0 : Nat} (h : Laid inp doc t e0) (hh : hasHeader inp = false) (hf : followed inp = true)
    (hc : noWsComma inp = true ∨ LBR ∉ inp) (hu : validUtf8 inp = true ∨ HASH ∉ inp) {x : Nat} (hx : Live doc x) {C : Coll} {tr : Bool} {w : Bytes} (hC : doc.data.mapping x = .ok C)
    (hk : C.kind = .inline tr w) {z : Nat} (hz : lastFlow true doc.data x = .ok (some z)) {zt : Bytes} (hzt : valueText doc.data z = .ok zt) (z0 : zt.headD 0 ≠ 0) (z1 : zt.headD 0 ≠ PIPE) (z2 : zt.headD 0 ≠ GT) :
    ∃ r s b e d E, b < e ∧ e < d ∧ d ≤ inp.length ∧ valueText doc.data x = .ok (slice inp b d) ∧ ReadFrom inp doc x b d ∧ slice inp e d = (if tr then [COMMA] else []) ++ w ++ [RCB] ∧ inp.drop r = skipBlank false inp ∧
      Within inp doc.data.view .block doc.root r s x b ∧ Outer inp doc.data.view .block doc.root r s x b d E ∧
      ∀ key val, mapGet doc.data x key = .ok none → keyFlow key = true → gap (val.sepText (b! " ")) = true → Token true (inp.drop e) (val.newText 0) val.reads → (val.newText 0).headD 0 ≠ 0 →
        (∀ g, FullGap inp E g → NL ∈ slice inp d g ∨ g = inp.length) → KeysEnd inp b → (s = .flow → Apart inp b) →
        ∀ out, out = inp.take e ++ (b! ",\n" ++ key ++ b! ":" ++ val.sepText (b! " ") ++ val.newText 0) ++ inp.drop e →
        ∃ doc', doc.edit x (.insert key val) = .ok doc' ∧ (∃ t' e1, Laid out doc' t' e1) ∧
          ∀ l, Reads doc.data x (.map l) → ∃ l', Reads doc'.data x (.map l') ∧ l'.list = l.list ++ [(key, .scalar val.reads)] := by
  have ht := h.laid.holds
  obtain ⟨pre, items, r, s, b, e, d, E, hu, -, hind, h1, h2, h3, h4, h5, h6, h7, h8, h9, h10⟩ := h.cell hh hf hc hu hx (m := true) hC hk (ht.lastFlow hz hzt z0 z1 z2)
  refine ⟨r, s, b, e, d, E, h1, h2, h3, h4, h5, by rw [← h6]; cases tr <;> rfl, h7, h8, h9, ?_⟩
  intro key val hg hkey hsep htok h0 hline hkeys hap out hout
  obtain ⟨p, ha⟩ := ht.at hu
  have heq := mapInsertV_eq ha.rep key val
  simp only [Tree.id_node] at heq
  have hl : items.lookup key = none := by rw [ha.mapGet key] at hg; simpa using hg
  obtain ⟨i, v, d2, g1, _, _, _, g2⟩ := ht.insertNew hu key val.sep (val.scalar (.node x pre true 0 (.inline tr w) items)) hl
  rw [← heq] at g1
  have e1 : insertPre val.sep = val.sepText (b! " ") := by
    cases val with
    | null sep => cases sep <;> rfl
    | _ => rfl
  have e2 : (val.scalar (.node x pre true 0 (.inline tr w) items)).write = val.newText 0 := Val.scalar_write
  have e3 : (val.scalar (.node x pre true 0 (.inline tr w) items)).value = val.reads := Val.scalar_value
  have hrow : newCell true ⟨.bare, key, key⟩ (insertPre val.sep) (val.scalar (.node x pre true 0 (.inline tr w) items)).write =
      b! ",\n" ++ key ++ b! ":" ++ val.sepText (b! " ") ++ val.newText 0 := by
    rw [e1, e2]
    simp [newCell, cellHead, RStr.write, NL, COLON, COMMA]
  have hfin := h10 ⟨doc.suffix, doc.root, d2⟩ i ⟨.bare, key, key⟩ v _ _ rfl g2 hline hkeys hap ⟨fun _ => ⟨rfl, hkey⟩, (fun h => by cases h), by rw [e1]; exact hsep, by rw [e2, e3]; exact htok, by rw [e2]; exact h0⟩
  rw [hrow, ← hout] at hfin
  obtain ⟨e5, hlaid⟩ := hfin
  refine ⟨_, edit_insert (asMapping_of ha.rep) g1, ⟨_, e5, hlaid⟩, ?_⟩
  intro l hl
  obtain ⟨p', ha'⟩ := g2.at (Tree.find_upd hu rfl)
  have c1 : Content.map l = .map items.entriesC := Reads.unique hl (by have := Tree.content_reads ha.rep; exact this)
  cases c1
  refine ⟨_, (by have := Tree.content_reads ha'.rep; exact this), ?_⟩
  rw [Items.entriesC_append]
  simp only [Items.entriesC, Entries.list, Tree.content, Val.scalar_value]

theorem Laid.pushFlow {inp : Bytes} {doc : Document} {t : Tree Nat} {e0 : Nat} (h : Laid inp doc t e0) (hh : hasHeader inp = false) (hf : followed inp = true)
    (hc : noWsComma inp = true ∨ LBR ∉ inp) (hu : validUtf8 inp = true ∨ HASH ∉ inp) {x : Nat} (hx : Live doc x) {C : Coll} {tr : Bool} {w : Bytes} (hC : doc.data.sequence x = .ok C)
    (hk : C.kind = .inline tr w) {z : Nat} (hz : lastFlow false doc.data x = .ok (some z)) {zt : Bytes} (hzt : valueText doc.data z = .ok zt) (z0 : zt.headD 0 ≠ 0) (z1 : zt.headD 0 ≠ PIPE) (z2 : zt.headD 0 ≠ GT)
    {auto : Bytes} (hauto : doc.data.pre z = .ok auto) :
    ∃ r s b e d E, b < e ∧ e < d ∧ d ≤ inp.length ∧ valueText doc.data x = .ok (slice inp b d) ∧ ReadFrom inp doc x b d ∧ slice inp e d = (if tr then [COMMA] else []) ++ w ++ [RBR] ∧ inp.drop r = skipBlank false inp ∧
      Within inp doc.data.view .block doc.root r s x b ∧ Outer inp doc.data.view .block doc.root r s x b d E ∧
      ∀ val, val.sepText auto = [] → Token true (inp.drop e) (val.newText 0) val.reads → (val.newText 0).headD 0 ≠ 0 →
        (∀ g, FullGap inp E g → NL ∈ slice inp d g ∨ g = inp.length) → KeysEnd inp b → (s = .flow → Apart inp b) →
        ∀ out, out = inp.take e ++ (b! ",\n" ++ val.newText 0) ++ inp.drop e →
        ∃ doc', doc.edit x (.push val) = .ok doc' ∧ (∃ t' e1, Laid out doc' t' e1) ∧
          ∀ l, Reads doc.data x (.seq l) → ∃ l', Reads doc'.data x (.seq l') ∧ l'.list = l.list ++ [.scalar val.reads] := by
  have ht := h.laid.holds
  obtain ⟨pre, items, r, s, b, e, d, E, hu, -, hind, h1, h2, h3, h4, h5, h6, h7, h8, h9, h10⟩ := h.cell hh hf hc hu hx (m := false) hC hk (ht.lastFlow hz hzt z0 z1 z2)
  refine ⟨r, s, b, e, d, E, h1, h2, h3, h4, h5, by rw [← h6]; cases tr <;> rfl, h7, h8, h9, ?_⟩
  intro val hsep htok h0 hline hkeys hap out hout
  obtain ⟨p, ha⟩ := ht.at hu
  have heq := seqPushV_eq ha.rep val
  simp only [Tree.id_node] at heq
  obtain ⟨i, v, d2, g1, _, _, _, g2⟩ := ht.push hu val.sep (val.scalar (.node x pre false 0 (.inline tr w) items))
  rw [← heq] at g1
  have e0 : pushPre .auto items = auto := by
    obtain ⟨key, v', hls, rfl⟩ := lastFlow_node ha hz
    rw [pushPre, hls]
    rw [getLast?_get] at hls
    obtain ⟨p', ha'⟩ := ht.at (Tree.find_trans ht.nodup hu (Tree.find_pair ha.nodup hls))
    have := pre_of ha'.get
    rw [hauto] at this
    exact (Except.ok.inj this).symm
  have e1 : pushPre val.sep items = [] := by
    rw [← hsep, ← e0]
    cases val with
    | null sep => cases sep <;> rfl
    | _ => rfl
  have e2 : (val.scalar (.node x pre false 0 (.inline tr w) items)).write = val.newText 0 := Val.scalar_write
  have e3 : (val.scalar (.node x pre false 0 (.inline tr w) items)).value = val.reads := Val.scalar_value
  have hrow : newCell false noKey (pushPre val.sep items) (val.scalar (.node x pre false 0 (.inline tr w) items)).write = b! ",\n" ++ val.newText 0 := by
    rw [e1, e2]
    simp [newCell, cellHead, NL, COMMA]
  have hfin := h10 ⟨doc.suffix, doc.root, d2⟩ i noKey v _ _ rfl g2 hline hkeys hap ⟨(fun h => by cases h), fun _ => e1, by rw [e1]; rfl, by rw [e2, e3]; exact htok, by rw [e2]; exact h0⟩
  rw [hrow, ← hout] at hfin
  obtain ⟨e5, hlaid⟩ := hfin
  refine ⟨_, edit_push (asSequence_of ha.rep) g1, ⟨_, e5, hlaid⟩, ?_⟩
  intro l hl
  obtain ⟨p', ha'⟩ := g2.at (Tree.find_upd hu rfl)
  have c1 : Content.seq l = .seq items.elemsC := Reads.unique hl (by have := Tree.content_reads ha.rep; exact this)
  cases c1
  refine ⟨_, (by have := Tree.content_reads ha'.rep; exact this), ?_⟩
  rw [Items.elemsC_append]
  simp only [Items.elemsC, Elems.list, Tree.content, Val.scalar_value]

end Verif
