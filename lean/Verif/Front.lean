import Verif.Inside
import Verif.CutDocs
import Verif.LaidEdits
/-
The first item of a block collection anywhere in a text taken out: helper lemmas for C88.
-/
namespace Verif

mutual
/-- White space follows where the value was: what is put in its place starts after it. -/
theorem LPut.front {p t t' q : Bytes} {B E : Nat} {K : Spot → Tree Unit → Prop} (hw : isWs ((t' ++ q).headD 0) = true) (H : KeysStay p (t ++ q) (t' ++ q))
    (hl : ∀ g, FullGap (p ++ t ++ q) E g → NL ∈ slice (p ++ t ++ q) (p ++ t).length g ∨ g = (p ++ t ++ q).length) (hf : followed (p ++ t ++ q) = true)
    (hB : B ≤ p.length) (hK : ∀ s x, K s x → Lies (p ++ t' ++ q) s B x (p ++ t').length) {s : Spot} {a : Nat} {x : Tree Unit} {hi' hi : Nat} :
    LPut (p ++ t ++ q) B (p ++ t).length E false K s a x hi' → hi' = (p ++ t).length + hi → Lies (p ++ t' ++ q) s a x ((p ++ t').length + hi)
  | .here h1 h2 h3, e => by
    obtain rfl : hi = 0 := by omega
    exact hK _ _ h3
  | .dashes h1 h2 h3, e => by
    have h5 := h3.le
    have h4 := h3.front hw H hl hf hB hK e
    rw [← Hole.column (t' := t') (by omega)] at h4 ⊢
    rw [← Hole.slice (t' := t') (by omega)]
    rw [List.append_assoc] at h1
    refine .dashes ?_ h2 h4
    rw [List.append_assoc]
    exact Inner.full h1 (by omega)
  | .keys h1 h2 h3, e => by
    have h5 := h3.le
    have h4 := h3.front hw H hl hf hB hK e
    rw [← Hole.column (t' := t') (by omega)] at h4 h2 ⊢
    rw [← Hole.slice (t' := t') (by omega)]
    rw [List.append_assoc] at h1
    refine .keys ?_ h2 h4
    rw [List.append_assoc]
    exact Inner.full h1 (by omega)
  | .brackets _ _ _ _ h5, e => by cases h5.flow
  | .braces _ _ _ _ h5, e => by cases h5.flow
theorem LPutRows.front {p t t' q : Bytes} {B E : Nat} {K : Spot → Tree Unit → Prop} (hw : isWs ((t' ++ q).headD 0) = true) (H : KeysStay p (t ++ q) (t' ++ q))
    (hl : ∀ g, FullGap (p ++ t ++ q) E g → NL ∈ slice (p ++ t ++ q) (p ++ t).length g ∨ g = (p ++ t ++ q).length) (hf : followed (p ++ t ++ q) = true)
    (hB : B ≤ p.length) (hK : ∀ s x, K s x → Lies (p ++ t' ++ q) s B x (p ++ t').length) {m : Bool} {c : Nat} {first : Bool} {ip : Bytes} {lo : Nat}
    {items : Items Unit} {hi' hi : Nat} : LPutRows (p ++ t ++ q) B (p ++ t).length E false K m c first ip lo items hi' → hi' = (p ++ t).length + hi →
      LiesRows (p ++ t' ++ q) m c first ip lo items ((p ++ t').length + hi)
  | .last (key := key) (a := a) (q := g) h1 h2 h3 h4 h5 h6, e => by
    have g1 := h2.lt
    have g3 := h4.le
    have g4 := h5.le
    have h7 := h4.front hw H hl hf hB hK e
    have h8 := h4.line hl (Spot.item_ne _ _)
    obtain ⟨g, rfl⟩ := Nat.exists_eq_add_of_le (show (p ++ t).length ≤ g by omega)
    subst e
    have h2' : Head (p ++ t' ++ q) first (keyOf m key) lo a := by
      rw [List.append_assoc] at h2 ⊢
      exact Inner.head' h2 (by omega) hw
    refine .last (by rw [Hole.column (t := t) (by omega)]; exact h1) h2' (by rw [h3]; exact (Hole.slice (by omega)).symm) h7 (mv_full h5) ?_
    have h9 : NL ∈ slice (p ++ t ++ q) (p ++ t).length ((p ++ t).length + g) ∨ (p ++ t).length + g = (p ++ t ++ q).length := by
      rcases h8 with h8 | h8
      · rw [h8] at h5
        exact hl _ h5
      · exact .inl (nl_slice_le (by omega) h8)
    rcases h9 with h9 | h9
    · rw [mv_goes (u := p ++ t) (Hole.later h9)]
      exact h6
    · rw [sh_len (p ++ t) q] at h9
      obtain rfl : g = q.length := by omega
      unfold Goes
      rw [sh_get, sh_getD, List.getElem?_eq_none (Nat.le_refl _), List.getD_eq_getElem?_getD, List.getElem?_eq_none (Nat.le_refl _)]
      split
      · rintro ⟨_, _, h⟩; exact h rfl
      · rintro ⟨_, h⟩; cases h
  | .head (key := key) (a := a) (e := e0) (lo' := g) h1 h2 h3 h4 h5 h6, e => by
    have g1 := h2.lt
    have g3 := h4.le
    have g4 := h5.le
    have g5 := h6.le
    have h7 := h4.front hw H hl hf hB hK (hi := e0 - (p ++ t).length) (by omega)
    have h8 := h4.line hl (Spot.item_ne _ _)
    obtain ⟨g, rfl⟩ := Nat.exists_eq_add_of_le (show (p ++ t).length ≤ g by omega)
    obtain ⟨e0, rfl⟩ := Nat.exists_eq_add_of_le (show (p ++ t).length ≤ e0 by omega)
    rw [Nat.add_sub_cancel_left] at h7
    have h9 : NL ∈ slice (p ++ t ++ q) (p ++ t).length ((p ++ t).length + g) := by
      rcases h8 with h8 | h8
      · rw [h8] at h5
        rcases hl _ h5 with h | h
        · exact h
        · omega
      · exact nl_slice_le (by omega) h8
    have h10 := h6.moved (u' := p ++ t') hf rfl e (.line (Hole.later h9))
    rw [← mv_slice (u' := p ++ t')] at h10
    have h2' : Head (p ++ t' ++ q) first (keyOf m key) lo a := by
      rw [List.append_assoc] at h2 ⊢
      exact Inner.head' h2 (by omega) hw
    exact .more (by rw [Hole.column (t := t) (by omega)]; exact h1) h2' (by rw [h3]; exact (Hole.slice (by omega)).symm) h7 (mv_full h5) h10
  | .tail (key := key) (a := a) h1 h2 h3 h4 h5 h6, e => by
    have g1 := h2.lt
    have g3 := h4.le
    have g4 := h5.le
    have g5 := h6.le
    have h7 := h6.front hw H hl hf hB hK e
    rw [← Hole.slice (t' := t') (by omega)] at h7
    have h8 := FromColon.item (c := c) h2
    have hs : slice (p ++ t' ++ q) lo a = slice (p ++ t ++ q) lo a := Hole.slice (by omega)
    have hc : columnAt (p ++ t' ++ q) lo = columnAt (p ++ t ++ q) lo := Hole.column (by omega)
    have h2' : Head (p ++ t' ++ q) first (keyOf m key) lo a := by
      rw [List.append_assoc] at h2 ⊢
      exact Inner.head' h2 (by omega) hw
    refine .more (by rw [hc]; exact h1) h2' (by rw [h3]; exact hs.symm) ?_ ?_ h7
    · rw [List.append_assoc] at h4 h5 h8 hf ⊢
      exact h4.inner H hf h5 (by omega) h8
    · rw [List.append_assoc] at h5 ⊢
      exact Inner.full h5 (by omega)
end

/-- Another item of a block collection is its first item, if it starts like one. -/
theorem LiesRows.toFirst {inp : Bytes} {m : Bool} {c : Nat} {ip : Bytes} {lo : Nat} {items : Items Unit} {hi : Nat} (h : LiesRows inp m c false ip lo items hi)
    (hh : ∀ key v a, items.pairs[0]? = some (key, v) → Head inp false (keyOf m key) lo a → Head inp true (keyOf m key) lo a) :
    ∃ items', LiesRows inp m c true [] lo items' hi ∧ items'.entriesC = items.entriesC ∧ items'.elemsC = items.elemsC := by
  cases h with
  | last h1 h2 h3 h4 h5 h6 => exact ⟨_, .last h1 (hh _ _ _ rfl h2) h3 h4 h5 h6, by simp [Items.entriesC], by simp [Items.elemsC]⟩
  | more h1 h2 h3 h4 h5 h6 => exact ⟨_, .more h1 (hh _ _ _ rfl h2) h3 h4 h5 h6, by simp [Items.entriesC], by simp [Items.elemsC]⟩

/-- The item at `q` can be the first one of a block collection: there is white space after the dash, or the key is read there as it is as another key. -/
def StartsAt (inp : Bytes) (m : Bool) (k : Bytes) (q : Nat) : Prop := if m then ∃ r, FirstKey inp k q r ∧ slice inp q r = k else isWs (inp.getD (q + 1) 0) = true

theorem StartsAt.head {inp : Bytes} {m : Bool} {key : RStr} {q a : Nat} (h : StartsAt inp m key.id q) (hh : Head inp false (keyOf m key) q a) : Head inp true (keyOf m key) q a := by
  unfold StartsAt at h
  cases m with
  | false => exact ⟨hh.1, fun _ => by simpa using h, hh.2.2⟩
  | true =>
    rw [if_pos rfl] at h
    obtain ⟨r, h1, h2⟩ := h
    obtain ⟨r', rfl, h3, h4, h5, -⟩ := hh
    have e1 := (List.getElem?_eq_some_iff.1 h1.2.1).1
    have e2 := (List.getElem?_eq_some_iff.1 h4).1
    have e3 := h1.1
    have := congrArg List.length (h2.trans h5.symm)
    rw [slice_length (by omega), slice_length (by omega)] at this
    obtain rfl : r = r' := by omega
    exact ⟨r, rfl, h1⟩

theorem StartsAt.moved {u u' y : Bytes} {m : Bool} {k : Bytes} {j : Nat} (h : StartsAt (u ++ y) m k (u.length + j)) : StartsAt (u' ++ y) m k (u'.length + j) := by
  unfold StartsAt at h ⊢
  split at h
  · next hm =>
    rw [if_pos hm]
    obtain ⟨r, h1, h2⟩ := h
    have := h1.1
    obtain ⟨r, rfl⟩ := Nat.exists_eq_add_of_le (show u.length ≤ r by omega)
    exact ⟨_, sh_firstKey.2 (sh_firstKey.1 h1), by rw [mv_slice (u := u)]; exact h2⟩
  · next hm =>
    rw [if_neg hm]
    have e := sh_getD u' y (j + 1) 0
    have e' := sh_getD u y (j + 1) 0
    rw [← Nat.add_assoc] at e e'
    rw [e, ← e']; exact h

/-- Without its first item, the block collection is in the text. -/
theorem front_lies {inp : Bytes} {R : Bytes → Bytes → Prop} (A : Allows inp R) (hfo : followed inp = true) {s : Spot} {b0 b d : Nat} {pre : Bytes} {m : Bool} {ind : Nat} {items : Items Unit}
    (hL : Lies inp s b0 (.node () pre m ind .block items) d) (hb : FullGap inp b0 b) (hn : 1 < items.pairs.length) :
    ∃ e' o1 o3 kv kv', b < e' ∧ e' ≤ d ∧ d ≤ inp.length ∧ items.pairs[0]? = some kv ∧ items.pairs[1]? = some kv' ∧ (items.rowTexts m)[0]? = some o1 ∧ LiesTo inp kv.2 e' ∧
      s ≠ .flow ∧ ind = columnAt inp b ∧ items.render m .block = o1 ++ o3 ∧ (items.eraseIdx 0).render m .block = o3 ∧ R (slice inp b e') o1 ∧ R (slice inp e' d) o3 ∧
      ∀ q, FullGap inp e' q → NL ∈ slice inp e' q → StartsAt inp m kv'.1.id q →
        ∃ z : Tree Unit, z.content = (Tree.node () pre m ind .block (items.eraseIdx 0)).content ∧ Lies (inp.take b ++ inp.drop e') s b0 z (b + (d - e')) := by
  obtain ⟨hs, hind, hrows⟩ : s ≠ .flow ∧ ind = columnAt inp b ∧ LiesRows inp m ind true [] b items d := by
    cases hL with
    | dashes h1 h2 h3 => obtain rfl := h1.unique hb; exact ⟨h2, rfl, h3⟩
    | keys h1 h2 h3 => obtain rfl := h1.unique hb; exact ⟨h2.1, rfl, h3⟩
  have hall : m = true → s.allows ind := by
    rintro rfl
    cases hL with
    | keys h1 h2 h3 => exact h2
  clear hL
  have hi0 : itemSpace m [] = [] := by cases m <;> rfl
  cases hrows with
  | last _ _ _ _ _ _ => simp [Items.pairs] at hn
  | more h1 h2 h3 h4 h5 h6 =>
    rename_i key a e' q0 v rest
    obtain ⟨k1, k2, k3⟩ := h4.keeps A
    obtain ⟨l1, l2, o, l3, l4⟩ := h6.keeps A
    have hlt := h2.lt
    have hle := h5.le
    obtain ⟨kv', hkv'⟩ : ∃ kv', rest.pairs[0]? = some kv' := by
      simp only [Items.pairs, List.length_cons] at hn
      exact ⟨_, List.getElem?_eq_getElem (by omega)⟩
    have hq0 := h6.le
    refine ⟨e', rowHead m key ++ v.text, itemSpace m (slice inp e' q0) ++ o, (key, v), kv', by omega, by omega, l2, rfl, by simpa [Items.pairs] using hkv', by simp [Items.rowTexts, hi0], ⟨_, _, Spot.item_ne _ _, h4⟩, hs, hind, ?_, ?_, ?_, ?_, ?_⟩
    · rw [render_cons, headText_block, hi0, l3]; simp [sepOf]
    · simp only [Items.eraseIdx]
      exact l3
    · rw [h3, ← slice_append (Nat.le_of_lt hlt) k1]
      exact A.append (A.refl _) k3
    · rw [← slice_append (c := d) hle.1 (by omega)]
      exact A.append (A.gapItem h5) l4
    intro q hq hnl hst
    obtain rfl := h5.unique hq
    obtain ⟨j, rfl⟩ : ∃ j, q0 = e' + j := ⟨q0 - e', by omega⟩
    have hl : (inp.take b).length = b := by rw [List.length_take]; omega
    have hl' : (inp.take e').length = e' := by rw [List.length_take]; omega
    have hj : NL ∈ (inp.drop e').take j := by
      simpa [slice] using hnl
    have s5 := LiesRows.moved (u := inp.take e') (u' := inp.take b) (y := inp.drop e') (lo := j) (hi := d - e') (by rw [List.take_append_drop]; exact hfo)
      (by rw [List.take_append_drop]; exact h6) (by rw [hl']) (by rw [hl']; omega) (.line hj)
    have hst' : StartsAt (inp.take b ++ inp.drop e') m kv'.1.id ((inp.take b).length + j) := StartsAt.moved (u := inp.take e') (by rw [List.take_append_drop, hl']; exact hst)
    obtain ⟨rest', r1, r2, r3⟩ := s5.toFirst (by
      intro key v a hk hh
      rw [hkv'] at hk
      cases hk
      exact hst'.head hh)
    have hcol : columnAt (inp.take b ++ inp.drop e') (b + j) = ind := by
      have := mv_col (u := inp.take e') (u' := inp.take b) hj
      rw [List.take_append_drop, hl, hl'] at this
      rw [this]; cases h6 <;> assumption
    have hg : FullGap (inp.take b ++ inp.drop e') b0 (b + j) := by
      have g1 := mv_full (u := inp.take e') (u' := inp.take b) (y := inp.drop e') (a := 0) (b := j) (by rw [List.take_append_drop, hl']; exact hq)
      rw [Nat.add_zero, hl] at g1
      refine ⟨Gap.trans (b := b) ?_ g1.1, g1.2⟩
      have g2 := hb.1
      refine ⟨g2.1, by rw [List.length_append, hl]; omega, .inl ?_⟩
      have := Joint.slice (x := inp.take b) (t := inp.drop b) (t' := inp.drop e') (a := b0) (b := b) (by omega)
      rw [List.take_append_drop] at this
      rw [this]
      rcases g2.2.2 with g | g
      · exact g
      · omega
    rw [hl] at r1
    refine ⟨.node () (slice (inp.take b ++ inp.drop e') b0 (b + j)) m ind .block rest', ?_, .rows hg rfl hcol hs hall r1⟩
    cases m <;> simp [Tree.content, Items.eraseIdx, r2, r3]

/-- The first item removed from a block collection. -/
theorem Laid.front {inp : Bytes} {doc : Document} {t : Tree Nat} {e0 : Nat} (h : Laid inp doc t e0) (hh : hasHeader inp = false) (hf : followed inp = true)
    (hc : noWsComma inp = true ∨ LBR ∉ inp) (hu : validUtf8 inp = true ∨ HASH ∉ inp) {x : Nat} (hx : Live doc x) {old : Bytes} (ho : valueText doc.data x = .ok old) (hn : old.headD 0 ≠ 0)
    {m : Bool} {C : Coll} (hC : collAt m doc.data x = .ok C) (hk : C.kind = .block) (hlen : 1 < C.items.length) :
    ∃ pre items b e' d k1 w1, t.find x = some (.node x pre m C.indent .block items) ∧ items.pairs[1]? = some (k1, w1) ∧ b < e' ∧ e' ≤ d ∧ d ≤ inp.length ∧ old = slice inp b d ∧ ReadFrom inp doc x b d ∧
      C.indent = columnAt inp b ∧ (items.texts m .block)[0]? = some (slice inp b e') ∧
      ∀ doc' q, doc'.suffix = doc.suffix → Holds doc' (Tree.upd x (.node x pre m C.indent .block (items.eraseIdx 0)) t) →
        FullGap inp e' q → isWs (inp.getD e' 0) = true → NL ∈ slice inp e' q → endsLine (inp.drop d) = true → KeysEnd inp b → StartsAt inp m k1.id q → hasHeader (inp.take b ++ inp.drop e') = false →
        doc'.write = .ok (inp.take b ++ inp.drop e') ∧ Stable doc' := by
  have A := allows_tidied hf hc hu
  have ht := h.laid.holds
  have hgap := h.laid.gap
  obtain ⟨u, r, s, b0, b, d, E, hu, hL, hg, -, -, hbd, hd, w1, w2, w3, hold, -, hrf, -, hE, hput, hall⟩ := h.readsL hf hc hu hh hx ho hn
  obtain ⟨pre, items, rfl⟩ := collAt_node ht hu hC
  rw [hk] at hu hL
  obtain ⟨p, ha⟩ := ht.at hu
  have hids : C.items = items.ids := by
    have hg := ha.get
    cases m with
    | true =>
      have hC : doc.data.mapping x = .ok C := hC
      rw [mapping_of hg] at hC; rw [← Except.ok.inj hC]
    | false =>
      have hC : doc.data.sequence x = .ok C := hC
      rw [sequence_of hg] at hC; rw [← Except.ok.inj hC]
  have hlp : 1 < items.pairs.length := by
    rw [hids] at hlen
    have : items.ids.length = items.pairs.length := (Items.length_pairs items).symm
    omega
  have hrender : items.render m .block = slice inp b d := by
    have := ha.text.symm.trans ho
    rw [← hold, ← Except.ok.inj this]
    simp [Tree.render, openOf, closeOf]
  rw [Tree.erase] at hL
  obtain ⟨e', o1, o3, kv, kv', k1, k2, -, k4, k5, kt, -, hs, hind, k6, k7, k8, k9, k10⟩ := front_lies A hf hL hg (by rw [Items.erase_pairs]; simpa using hlp)
  rw [Items.erase_render, hrender, ← slice_append (Nat.le_of_lt k1) k2] at k6
  obtain ⟨rfl, rfl⟩ := Tidied.cut k8 k9 k6.symm
  rw [← Items.erase_eraseIdx, Items.erase_render] at k7
  rw [Items.erase_pairs, List.getElem?_map] at k5
  obtain ⟨⟨key1, v1⟩, hv1, rfl⟩ := Option.map_eq_some_iff.1 k5
  refine ⟨pre, items, b, e', d, key1, v1, hu, hv1, k1, k2, hd, hold, hrf, hind, by rw [← Items.rowTexts_texts, ← Items.erase_rowTexts]; exact kt, ?_⟩
  intro doc' q hsuf hh2 hq hws hnl hline hkeys hst hhead
  obtain ⟨z, hz, hlies⟩ := k10 q hq hnl hst
  have e1 : (Tree.node x pre m C.indent .block (items.eraseIdx 0)).render = slice inp e' d := by
    rw [← k7]
    simp [Tree.render, openOf, closeOf]
  have e3 : inp.take b ++ slice inp e' d ++ inp.drop d = inp.take b ++ inp.drop e' := by
    rw [List.append_assoc, ← slice_drop (inp := inp) (d := d), slice_append k2 hd, slice_drop]
  obtain ⟨hwr, -⟩ := hall doc' (.node x pre m C.indent .block (items.eraseIdx 0)) rfl rfl hsuf hh2
  rw [e1, e3] at hwr
  refine ⟨hwr, ?_⟩
  have hE' : E = d := by
    rcases hE with h | h
    · exact h.2
    · exact absurd h.1 hs
  have hfl : s.inline = false := by cases s <;> first | rfl | exact absurd rfl hs
  have hlb : (inp.take b).length = b := by rw [List.length_take]; omega
  have hcut := cut3 (inp := inp) (Nat.le_of_lt hbd)
  have hld : (inp.take b ++ slice inp b d).length = d := by rw [List.length_append, slice_length hd, hlb]; omega
  have hld' : (inp.take b ++ slice inp e' d).length = b + (d - e') := by rw [List.length_append, slice_length hd, hlb]
  have hP := hput z (fun s1 y => s1 = s ∧ y = z) ⟨rfl, rfl⟩
  have hle := hP.le
  have hel := hgap.le
  have hbb := hg.le
  obtain ⟨j, rfl⟩ : ∃ j, e0 = d + j := ⟨e0 - d, by omega⟩
  rw [hfl] at hP
  have hj2 : slice inp e' d ++ inp.drop d = inp.drop e' := by
    rw [← slice_drop (inp := inp) (d := d), slice_append k2 hd, slice_drop]
  have hl := LPut.front (p := inp.take b) (t := slice inp b d) (t' := slice inp e' d) (q := inp.drop d) (B := b0) (E := E) (hi' := d + j) (hi := j) (K := fun s1 y => s1 = s ∧ y = z)
    (by rw [hj2, List.headD_eq_head?_getD, List.head?_drop, ← List.getD_eq_getElem?_getD]; exact hws)
    (by
      have := hkeys.stay (by omega) (W := inp.drop e') (by rw [List.headD_eq_head?_getD, List.head?_drop, ← List.getD_eq_getElem?_getD]; exact hws)
      rw [hj2, show slice inp b d ++ inp.drop d = inp.drop b by rw [← slice_drop (inp := inp) (d := d), slice_append (Nat.le_of_lt hbd) hd, slice_drop]]
      exact this)
    (by rw [hcut, hld, hE']; exact fun g => endsLine_full (g := g) hd hline) (by rw [hcut]; exact hf) (by omega)
    (fun s1 y hy => by rw [hy.1, hy.2, e3, hld']; exact hlies) (by rw [hcut, hld]; exact hP) (by rw [hld])
  have hend : FullGap (inp.take b ++ slice inp e' d ++ inp.drop d) ((inp.take b ++ slice inp e' d).length + j) (inp.take b ++ slice inp e' d ++ inp.drop d).length := by
    have hlen : (inp.take b ++ slice inp e' d ++ inp.drop d).length = (inp.take b ++ slice inp e' d).length + (inp.length - d) := by rw [List.length_append (bs := inp.drop d), List.length_drop]
    rw [hlen]
    exact mv_full (u := inp.take b ++ slice inp b d) (u' := inp.take b ++ slice inp e' d) (y := inp.drop d) (a := j) (b := inp.length - d)
      (by rw [hcut, hld, show d + (inp.length - d) = inp.length by omega]; exact hgap)
  rw [e3] at hl hend
  obtain ⟨lo, hi, j1, j2, -, j3⟩ := hl.sits
  obtain ⟨doc2, p1, p2⟩ := accepted (inp := inp.take b ++ inp.drop e') ⟨lo, hi, j1.le.2, by rw [body_eq hhead, skipBlank_eq, ← j1.eq, wsEnd]; simp, j2.content, by
    rcases j3 with rfl | j3
    · exact hend
    · exact j3.1.twice hend⟩
  refine ⟨_, doc2, _, hwr, p1, ?_, p2⟩
  have : (Tree.upd x (z.allAs x) t).erase.content = (Tree.upd x (.node x pre m C.indent .block (items.eraseIdx 0)) t).content := by
    rw [Tree.content_erase]
    refine Tree.upd_content ?_ t
    rw [← Tree.content_erase, Tree.allAs_erase, hz, ← Items.erase_eraseIdx, ← Tree.content_erase, Tree.erase]
  rw [this, hh2.root]
  exact Tree.content_reads hh2.rep

end Verif
