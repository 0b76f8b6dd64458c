import Verif.Inside
/-
A first item in an empty inline collection anywhere in a document that was read: what is written is read back.  Used in proofs only; nothing here is part of the Rust code.
-/
namespace Verif

/-- What is written of the only item of an inline collection. -/
def oneCell (m : Bool) (key : RStr) (sep text : Bytes) : Bytes := cellHead m key ++ sep ++ text

/-- The only item is in the text. -/
theorem CellOk.one {m : Bool} {key : RStr} {sep text rest : Bytes} {a : AnyV} (R : CellOk m key sep text rest a) (x : Bytes) (w : Bytes) {sc : Scalar} (hv : sc.value = a) (hw : sc.write = text)
    {st n' hi : Nat} {w' : Bytes}
    (hn : NextCell (x ++ oneCell m key sep text ++ rest) m false (x ++ oneCell m key sep text).length true st n')
    (hc : cellSpace (x ++ oneCell m key sep text ++ rest) m false true (x ++ oneCell m key sep text).length st n' = w')
    (hnil : LiesCells (x ++ oneCell m key sep text ++ rest) m true w' n' .nil false w' hi) :
    LiesCells (x ++ oneCell m key sep text ++ rest) m false w x.length (.cons () w key (.leaf () sep sc) .nil) false w' hi := by
  have hst := R.token.starts R.nul
  have hG := full_mid (H := x ++ cellHead m key) (A := sep) (R := text ++ rest) R.sep
    (by rw [headD_first R.nul]; exact hst.1) (by rw [headD_first R.nul]; exact hst.2.1)
  rw [← List.append_assoc] at hG
  have hS := lies_midF (s := .flow) (sc := sc) hG rfl hw (by rw [hv]; exact R.token)
  have e2 : x ++ cellHead m key ++ sep ++ text ++ rest = x ++ oneCell m key sep text ++ rest := by simp [oneCell]
  have e3 : x ++ cellHead m key ++ sep ++ text = x ++ oneCell m key sep text := by simp [oneCell]
  have hat : atBlock (x ++ oneCell m key sep text ++ rest) (x ++ cellHead m key ++ sep).length = false := by
    have : (x ++ oneCell m key sep text ++ rest).getD (x ++ cellHead m key ++ sep).length 0 = text.headD 0 := by
      rw [← e2, List.append_assoc _ text, Joint.at0, headD_first R.nul]
    unfold atBlock
    rw [this, beq_eq_false_iff_ne.2 hst.2.2.1, beq_eq_false_iff_ne.2 hst.2.2.2.1]; rfl
  rw [e2, e3] at hS
  rw [e2] at hG
  refine .cell ?_ ?_ ?_ hG hS (by rw [hat]; exact hn) (by rw [hat, hc]; exact hnil) (fun _ => rfl)
  · obtain ⟨b, r, h1, -, -, h2, h3⟩ := R.head
    have : (x ++ oneCell m key sep text ++ rest).getD x.length 0 = b := by
      rw [show x ++ oneCell m key sep text ++ rest = x ++ (cellHead m key ++ sep ++ text ++ rest) by simp [oneCell], Joint.at0, h1]
      rfl
    unfold Opens
    rw [this]
    exact ⟨h2, h3⟩
  · cases m with
    | false => simp [cellHead, keyOf, CellHead]
    | true =>
      obtain ⟨h1, h2⟩ := R.key rfl
      obtain ⟨-, h3, h4, -⟩ := flowKey_iff.1 h2
      have e4 : x ++ oneCell true key sep text ++ rest = x ++ (key.id ++ (COLON :: (sep ++ text ++ rest))) := by simp [oneCell, cellHead, h1]
      refine ⟨(x ++ key.id).length, by simp, .inl ?_, by simp [cellHead, h1]; omega, ?_, h3, h4⟩
      · rw [e4, ← List.append_assoc, List.getElem?_append_right (Nat.le_refl _)]; simp
      · rw [e4, slice, List.drop_left, List.length_append (bs := key.id), Nat.add_sub_cancel_left, List.take_left]
  · rintro rfl
    obtain ⟨h1, h2⟩ := R.key rfl
    have e4 : x ++ oneCell true key sep text ++ rest = x ++ (key.id ++ (COLON :: (sep ++ text ++ rest))) := by simp [oneCell, cellHead, h1]
    have e5 : (x ++ cellHead true key).length - 1 = (x ++ key.id).length := by simp [cellHead, h1]
    rw [cellKey, if_pos rfl, e5, e4, slice, List.drop_left, List.length_append (bs := key.id), Nat.add_sub_cancel_left, List.take_left, h1]

/-- The items of an inline collection that was empty. -/
theorem cells_one {inp : Bytes} {m tr : Bool} {w : Bytes} {lo n hi : Nat}
    (h2 : inp[lo]? = some (if m then LCB else LBR)) (h3 : FullGap inp (lo + 1) n) (h4 : LiesCells inp m false (slice inp (lo + 1) n) n .nil tr w hi) {P : Bytes} (hP : gap P = true) {key : RStr} {sep : Bytes}
    {sc : Scalar} (R : CellOk m key sep sc.write (inp.drop (lo + 1)) sc.value) :
    ∃ w', FullGap (inp.take (lo + 1) ++ (P ++ oneCell m key sep sc.write) ++ inp.drop (lo + 1)) (lo + 1) (lo + 1 + P.length) ∧
      slice (inp.take (lo + 1) ++ (P ++ oneCell m key sep sc.write) ++ inp.drop (lo + 1)) (lo + 1) (lo + 1 + P.length) = P ∧
      LiesCells (inp.take (lo + 1) ++ (P ++ oneCell m key sep sc.write) ++ inp.drop (lo + 1)) m false P (lo + 1 + P.length) (.cons () P key (.leaf () sep sc) .nil) false w'
        (hi + (P ++ oneCell m key sep sc.write).length) := by
  cases h4 with
  | none h5 =>
  have hlt : lo < inp.length := (List.getElem?_eq_some_iff.1 h2).1
  have hl : (inp.take (lo + 1)).length = lo + 1 := by rw [List.length_take]; omega
  have g3 := h3.le
  obtain ⟨j, rfl⟩ : ∃ j, n = lo + 1 + j := ⟨n - (lo + 1), by omega⟩
  obtain ⟨c, r, e1, k1, k2, k3, k4⟩ := R.head
  have hcut := List.take_append_drop (lo + 1) inp
  have e2 : inp.take (lo + 1) ++ (P ++ oneCell m key sep sc.write) ++ inp.drop (lo + 1) = inp.take (lo + 1) ++ P ++ (oneCell m key sep sc.write ++ inp.drop (lo + 1)) := by simp
  have hG := full_mid (H := inp.take (lo + 1)) (A := P) (R := oneCell m key sep sc.write ++ inp.drop (lo + 1)) hP
    (by rw [oneCell, e1]; exact k1) (by rw [oneCell, e1]; exact k2)
  have hsl : slice (inp.take (lo + 1) ++ P ++ (oneCell m key sep sc.write ++ inp.drop (lo + 1))) (inp.take (lo + 1)).length (inp.take (lo + 1) ++ P).length = P := by
    rw [slice, List.append_assoc, List.drop_left, List.length_append (as := inp.take (lo + 1)), Nat.add_sub_cancel_left, List.take_left]
  rw [← e2] at hG hsl
  rw [List.length_append, hl] at hG hsl
  -- what follows
  have hF := mv_full (u := inp.take (lo + 1)) (u' := inp.take (lo + 1) ++ P ++ oneCell m key sep sc.write) (y := inp.drop (lo + 1)) (a := 0) (b := j) (by rw [hcut, hl]; exact h3)
  have hB : (inp.take (lo + 1) ++ P ++ oneCell m key sep sc.write ++ inp.drop (lo + 1))[(inp.take (lo + 1) ++ P ++ oneCell m key sep sc.write).length + j]? = some (close m) := by
    rw [sh_get, List.getElem?_drop]; exact h5
  have e4 : inp.take (lo + 1) ++ (P ++ oneCell m key sep sc.write) ++ inp.drop (lo + 1) = inp.take (lo + 1) ++ P ++ oneCell m key sep sc.write ++ inp.drop (lo + 1) := by simp
  have hnc : close m ≠ COMMA := by cases m <;> decide
  have hnext : NextCell (inp.take (lo + 1) ++ P ++ oneCell m key sep sc.write ++ inp.drop (lo + 1)) m false (inp.take (lo + 1) ++ P ++ oneCell m key sep sc.write).length true
      (if m then (inp.take (lo + 1) ++ P ++ oneCell m key sep sc.write).length + j else (inp.take (lo + 1) ++ P ++ oneCell m key sep sc.write).length)
      ((inp.take (lo + 1) ++ P ++ oneCell m key sep sc.write).length + j) := by
    cases m with
    | true => exact ⟨_, hF, .inr ⟨rfl, (by rw [hB]; intro h; exact hnc (Option.some.inj h)), rfl, hF⟩⟩
    | false =>
      refine ⟨_, rfl, .inr ⟨rfl, ?_, rfl, hF⟩⟩
      intro hx
      have hx' : inp[lo + 1]? = some COMMA := by
        have := sh_get (inp.take (lo + 1) ++ P ++ oneCell false key sep sc.write) (inp.drop (lo + 1)) 0
        rw [List.getElem?_drop] at this
        exact this.symm.trans hx
      have hd : inp.getD (lo + 1) 0 = COMMA := by rw [List.getD_eq_getElem?_getD, hx']; rfl
      have hs : FullGap inp (lo + 1) (lo + 1) := ⟨⟨Nat.le_refl _, by omega, .inl (by rw [slice_none (Nat.le_refl _)]; rfl)⟩, by rw [hd]; decide, by rw [hd]; decide⟩
      obtain rfl : j = 0 := by have := hs.unique h3; omega
      rw [Nat.add_zero] at h5
      exact hnc (Option.some.inj (h5.symm.trans hx'))
  have hfin := R.one (inp.take (lo + 1) ++ P) P (sc := sc) rfl rfl (hi := (inp.take (lo + 1) ++ P ++ oneCell m key sep sc.write).length + j) hnext rfl (.none hB)
  rw [← show lo + 1 + j + (P ++ oneCell m key sep sc.write).length = (inp.take (lo + 1) ++ P ++ oneCell m key sep sc.write).length + j by simp [hl]; omega, ← e4] at hfin
  rw [List.length_append (as := inp.take (lo + 1)) (bs := P), hl] at hfin
  exact ⟨_, hG, hsl, hfin⟩

/-- An inline collection that was empty, with an item. -/
theorem Lies.fill {inp : Bytes} {s : Spot} {m tr : Bool} {ind : Nat} {w pre : Bytes} {a b d : Nat}
    (h : Lies inp s a (.node () pre m ind (.inline tr w) .nil) d) (hg : FullGap inp a b) :
    ind = 0 ∧ tr = false ∧ b + 1 < d ∧ inp[b]? = some (if m then LCB else LBR) ∧ 
      ∀ P key sep sc, Verif.gap P = true → CellOk m key sep sc.write (inp.drop (b + 1)) sc.value →
        ∃ w', Lies (inp.take (b + 1) ++ (P ++ oneCell m key sep sc.write) ++ inp.drop (b + 1)) s a (.node () pre m ind (.inline false w') (.cons () P key (.leaf () sep sc) .nil))
          (d + (P ++ oneCell m key sep sc.write).length) := by
  have key : ∀ {Y : Bytes}, ∀ hx : inp[b]? = some (if m then LCB else LBR),
      FullGap (inp.take (b + 1) ++ Y ++ inp.drop (b + 1)) a b ∧ (inp.take (b + 1) ++ Y ++ inp.drop (b + 1))[b]? = some (if m then LCB else LBR) ∧
        slice (inp.take (b + 1) ++ Y ++ inp.drop (b + 1)) a b = slice inp a b := by
    intro Y k5
    have hlt : b < inp.length := (List.getElem?_eq_some_iff.1 k5).1
    have hlen : (inp.take (b + 1)).length = b + 1 := by rw [List.length_take]; omega
    have hcut := List.take_append_drop (b + 1) inp
    rw [List.append_assoc]
    exact ⟨Inner.full (y := inp.drop (b + 1)) (by rw [hcut]; exact hg) (by omega), by rw [Joint.get (t := inp.drop (b + 1)) (by omega), hcut]; exact k5,
      by rw [Joint.slice (t := inp.drop (b + 1)) (by omega), hcut]⟩
  generalize hk : CollKind.inline tr w = K at h
  generalize hI : (Items.nil : Items Unit) = I at h
  cases h with
  | dashes h1 h2 h3 => cases hk
  | keys h1 h2 h3 => cases hk
  | @brackets _ _ lo n hi _ _ _ h1 h2 h3 h4 h5 =>
    cases hk
    subst hI
    obtain rfl := h1.unique hg
    have g3 := h3.le
    have g4 := h4.le
    refine ⟨rfl, h5 rfl, by omega, h2, fun P k sep sc hP R => ?_⟩
    obtain ⟨w', i1, i2, i3⟩ := cells_one (m := false) h2 h3 h4 hP R
    obtain ⟨j1, j2, j4⟩ := key (Y := P ++ oneCell false k sep sc.write) h2
    rw [← j4, show hi + 1 + (P ++ oneCell false k sep sc.write).length = hi + (P ++ oneCell false k sep sc.write).length + 1 by omega]
    refine ⟨w', .brackets j1 j2 i1 ?_ (fun h => by cases h)⟩
    rw [i2]
    exact i3
  | @braces _ _ lo n hi _ _ _ h1 h2 h3 h4 h5 =>
    cases hk
    subst hI
    obtain rfl := h1.unique hg
    have g3 := h3.le
    have g4 := h4.le
    refine ⟨rfl, h5 rfl, by omega, h2, fun P k sep sc hP R => ?_⟩
    obtain ⟨w', i1, i2, i3⟩ := cells_one (m := true) h2 h3 h4 hP R
    obtain ⟨j1, j2, j4⟩ := key (Y := P ++ oneCell true k sep sc.write) h2
    rw [← j4, show hi + 1 + (P ++ oneCell true k sep sc.write).length = hi + (P ++ oneCell true k sep sc.write).length + 1 by omega]
    refine ⟨w', .braces j1 j2 i1 ?_ (fun h => by cases h)⟩
    rw [i2]
    exact i3

/-- The first item of an inline collection. -/
theorem Laid.fill {inp : Bytes} {doc : Document} {t : Tree Nat} {e0 : Nat} (h : Laid inp doc t e0) (hh : hasHeader inp = false) (hf : followed inp = true)
    (hc : noWsComma inp = true ∨ LBR ∉ inp) (hu : validUtf8 inp = true ∨ HASH ∉ inp) {x : Nat} (hx : Live doc x) {m tr : Bool} {w : Bytes} {C : Coll} (hC : collAt m doc.data x = .ok C)
    (hk : C.kind = .inline tr w) (hnil : C.items = []) :
    ∃ pre r s b d E, t.find x = some (.node x pre m 0 (.inline false w) .nil) ∧ tr = false ∧ C.indent = 0 ∧ b + 1 < d ∧ d ≤ inp.length ∧ valueText doc.data x = .ok (slice inp b d) ∧ ReadFrom inp doc x b d ∧
      inp.drop r = skipBlank false inp ∧ Within inp doc.data.view .block doc.root r s x b ∧ Outer inp doc.data.view .block doc.root r s x b d E ∧
      ∀ doc' i key v sep sc out, doc'.suffix = doc.suffix →
        Holds doc' (Tree.upd x (.node x pre m 0 (.inline false w) (.cons i [] key (.leaf v sep sc) .nil)) t) →
        (∀ g, FullGap inp E g → NL ∈ slice inp d g ∨ g = inp.length) → KeysEnd inp b → (s = .flow → Apart inp b) → gap sep = true → CellOk m key (if m then sep else []) sc.write (inp.drop (b + 1)) sc.value →
        out = inp.take (b + 1) ++ oneCell m key sep sc.write ++ inp.drop (b + 1) → hasHeader out = false → doc'.write = .ok out ∧ Stable doc' := by
  have ht := h.laid.holds
  obtain ⟨u0, hu0⟩ := (ht.live_iff x).1 hx
  obtain ⟨pre, items, rfl⟩ := collAt_node ht hu0 hC
  obtain ⟨p, ha⟩ := ht.at hu0
  have hids : C.items = items.ids := by
    have hg := ha.get
    cases m with
    | true =>
      have hC : doc.data.mapping x = .ok C := hC
      rw [mapping_of hg] at hC; rw [← Except.ok.inj hC]
    | false =>
      have hC : doc.data.sequence x = .ok C := hC
      rw [sequence_of hg] at hC; rw [← Except.ok.inj hC]
  obtain rfl : items = .nil := by
    rw [hnil] at hids
    cases items with
    | nil => rfl
    | cons => cases hids
  rw [hk] at ha
  have ho := ha.text
  have hrend : Tree.render (.node x pre m C.indent (.inline tr w) .nil) = openOf (.inline tr w) (if m then LCB else LBR) ++ closeOf (.inline tr w) (if m then RCB else RBR) := by
    simp [Tree.render, Items.render]
  have hn : (Tree.render (.node x pre m C.indent (.inline tr w) .nil)).headD 0 ≠ 0 := by
    rw [hrend]
    cases m <;> simp [openOf] <;> decide
  obtain ⟨u, r, s, b0, b, d, E, hu', hL, hg, hg0, hr, hbd, hd, w1, w2, w3, hold, hctl, hrf, hwi, hE, -, hall⟩ := h.readsL hf hc hu hh hx ho hn
  rw [hu0, hk] at hu'
  obtain rfl := Option.some.inj hu'
  rw [hk] at hu0
  rw [Tree.erase, Items.erase] at hL
  obtain ⟨hind, rfl, hbd', hb, hnew⟩ := hL.fill hg
  rw [hind] at hu0 hall hL hrend hold ho
  refine ⟨pre, r, s, b, d, E, hu0, rfl, hind, hbd', hd, by rw [ho, hold], hrf, hr, hwi, hE, ?_⟩
  intro doc' i key v sep sc out hsuf hh2 hline hkeys hap hsep R hout hhead
  have hop : openOf (.inline false w) (if m then LCB else LBR) = slice inp b (b + 1) := by rw [slice_at hb]; rfl
  have hcl : closeOf (.inline false w) (if m then RCB else RBR) = slice inp (b + 1) d := by
    have := hrend
    rw [hold, ← slice_append (a := b) (b := b + 1) (by omega) (by omega), ← hop] at this
    exact (List.append_cancel_left this).symm
  have e1 : (Tree.node x pre m 0 (.inline false w) (.cons i [] key (.leaf v sep sc) .nil)).render = slice inp b (b + 1) ++ oneCell m key sep sc.write ++ slice inp (b + 1) d := by
    rw [Tree.render, hop, hcl]
    have hl0 : lossy [] = [] := by decide
    cases m <;> simp [Items.render, Tree.render, Tree.pre, sepOf, cellHead, oneCell, Items.isNil, hl0]
  have hlb : (inp.take b).length = b := by rw [List.length_take]; omega
  have hle : (inp.take (b + 1)).length = b + 1 := by rw [List.length_take]; omega
  have e2 : inp.take b ++ (slice inp b (b + 1) ++ oneCell m key sep sc.write ++ slice inp (b + 1) d) = inp.take (b + 1) ++ oneCell m key sep sc.write ++ slice inp (b + 1) d := by
    rw [← List.append_assoc, ← List.append_assoc]
    congr 2
    have h1 : inp.take b = slice inp 0 b := by simp [slice]
    rw [h1, slice_append (Nat.zero_le _) (by omega)]
    simp [slice]
  have e3 : inp.take (b + 1) ++ oneCell m key sep sc.write ++ slice inp (b + 1) d ++ inp.drop d = inp.take (b + 1) ++ oneCell m key sep sc.write ++ inp.drop (b + 1) := by
    rw [List.append_assoc _ (slice inp (b + 1) d)]
    congr 1
    have h1 : slice inp (b + 1) inp.length = inp.drop (b + 1) := slice_drop
    rw [← h1, ← slice_append (a := b + 1) (b := d) (by omega) hd, slice_drop]
  have hcut := cut3 (inp := inp) (Nat.le_of_lt hbd)
  have hld : (inp.take b ++ slice inp b d).length = d := by rw [List.length_append, slice_length hd, hlb]; omega
  have hsl0 : (slice inp b d).headD 0 = inp.getD b 0 := slice_headD hbd
  have hne : (slice inp b d).headD 0 ≠ 0 := by rw [hsl0]; exact w3
  have hsl1 : (slice inp b (b + 1)).headD 0 = inp.getD b 0 := slice_headD (by omega)
  have hne1 : (slice inp b (b + 1)).headD 0 ≠ 0 := by rw [hsl1]; exact w3
  obtain ⟨hwr, hfin⟩ := hall doc' (.node x pre m 0 (.inline false w) (.cons i [] key (.leaf v sep sc) .nil)) rfl rfl hsuf hh2
  rw [e1, e2, e3, ← hout] at hwr
  refine ⟨hwr, ?_⟩
  -- the text as it is read
  obtain ⟨w', hlies⟩ := hnew (if m then [] else sep) key (if m then sep else []) sc (by cases m <;> first | exact hsep | rfl) R
  have ePc : (if m then [] else sep) ++ oneCell m key (if m then sep else []) sc.write = oneCell m key sep sc.write := by cases m <;> simp [oneCell, cellHead]
  rw [ePc] at hlies
  have hlen : (inp.take (b + 1) ++ oneCell m key sep sc.write ++ slice inp (b + 1) d).length = d + (oneCell m key sep sc.write).length := by
    rw [List.length_append, List.length_append, slice_length hd, hle]; omega
  rw [e1, e2, e3] at hfin
  have hhole : Hole (inp.take b) (slice inp b d) (slice inp b (b + 1) ++ oneCell m key sep sc.write ++ slice inp (b + 1) d) (inp.drop d) E s.inline := by
    have hfirst : ∀ z, (slice inp b (b + 1) ++ oneCell m key sep sc.write ++ slice inp (b + 1) d ++ z).headD 0 = inp.getD b 0 := fun z => by
      rw [List.append_assoc, List.append_assoc, headD_first hne1, hsl1]
    have hfirst0 : (slice inp b (b + 1) ++ oneCell m key sep sc.write ++ slice inp (b + 1) d).headD 0 = inp.getD b 0 := by
      rw [List.append_assoc, headD_first hne1, hsl1]
    have hbr : inp.getD b 0 = if m then LCB else LBR := by rw [List.getD_eq_getElem?_getD, hb]; rfl
    refine ⟨⟨⟨?_, ?_, ?_⟩, ⟨?_, ?_, ?_⟩, ?_⟩, ?_, ?_, ?_, ?_, ?_⟩
    · rw [headD_first hne, hsl0]; exact w1
    · rw [headD_first hne, hsl0]; exact w2
    · rw [headD_first hne, hsl0]; exact w3
    · rw [hfirst]; exact w1
    · rw [hfirst]; exact w2
    · rw [hfirst]; exact w3
    · intro a k lo q h1 h2 h3 h4
      rw [← List.append_assoc, hcut] at h1 h2 h4
      rw [hlb] at h3
      have h5 := hkeys a k lo q h1 h2 h3 h4
      refine ⟨k, q, ?_⟩
      rw [← List.append_assoc, e2, e3, List.append_assoc]
      exact Inner.firstKey (y := inp.drop (b + 1)) (by rw [List.take_append_drop]; exact h4) (by omega) (.inl (by omega))
    · rw [hfirst0]; exact w3
    · intro h
      rw [hfirst0]
      exact ⟨by rw [hbr]; cases m <;> decide, by rw [hbr]; cases m <;> decide, hctl h⟩
    · rw [hcut, hld]; exact hline
    · intro h
      rw [hcut, hlb]
      unfold atBlock
      rw [hbr]
      cases m <;> decide
    · intro h α V v lo hi hs
      rw [hcut] at hs
      rw [hlb]
      rintro rfl
      exact hs.notNext (hap (by cases s <;> first | rfl | cases h)) (by omega) w1 w2 (hctl h)
  obtain ⟨V, e', v1, v2, v3⟩ := hfin (.node () pre m 0 (.inline false w') (.cons () (if m then [] else sep) key (.leaf () (if m then sep else []) sc) .nil)) (by cases m <;> rfl) hhole (by rw [hlen]; rw [hind] at hlies; exact hlies)
  rw [← hout] at v2 v3
  obtain ⟨lo, hi, j1, j2, -, j3⟩ := v2.sits
  obtain ⟨doc2, p1, p2⟩ := accepted (inp := out) ⟨lo, hi, j1.le.2, by rw [body_eq hhead, skipBlank_eq, ← j1.eq, wsEnd]; simp, j2.content, by
    rcases j3 with rfl | j3
    · exact v3
    · exact j3.1.twice v3⟩
  refine ⟨_, doc2, _, hwr, p1, ?_, p2⟩
  rw [v1, hh2.root]
  exact Tree.content_reads hh2.rep

end Verif
