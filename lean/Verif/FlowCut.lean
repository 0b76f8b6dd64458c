import Verif.Flow
/-
An item removed from an inline collection anywhere in a text.  Used in proofs only; nothing here is part of the Rust code.
-/
namespace Verif

theorem ctl_stops {b : UInt8} (h : isCtl b = true) : isWs b = false ∧ b ≠ HASH ∧ b ≠ SQ ∧ ¬ (numChar b = true ∨ b = DASH) := by
  have key : ∀ b : Fin 256, isCtl (UInt8.ofNat b) = true → isWs (UInt8.ofNat b) = false ∧ UInt8.ofNat b ≠ HASH ∧ UInt8.ofNat b ≠ SQ ∧ ¬ (numChar (UInt8.ofNat b) = true ∨ UInt8.ofNat b = DASH) := by
    decide +kernel
  have := key ⟨b.toNat, b.toNat_lt⟩
  simp only [UInt8.ofNat_toNat] at this
  exact this h

theorem token_ctl {r r' s : Bytes} {a : AnyV} (h : Token true r s a) (hr : isCtl (r'.headD 0) = true) : Token true r' s a := by
  obtain ⟨-, -, hq, hn⟩ := ctl_stops hr
  cases h with
  | number h1 h2 =>
    refine .number h1 ?_
    rw [if_pos rfl, Bool.eq_false_iff]
    intro h
    exact hn (isNumber_chars h _ (by simp))
  | plain h1 h2 =>
    refine .plain h1 ?_
    unfold plainText at h2 ⊢
    rw [if_pos rfl] at h2 ⊢
    simp only [Bool.and_eq_true] at h2 ⊢
    exact ⟨h2.1, h2.2.1, hr⟩
  | quoted h1 h2 h3 => exact .quoted h1 (fun h => by cases h) (fun _ => hq)

/-- A value of an inline collection, with something else after it. -/
theorem Lies.ctl {x y y' : Bytes} (hf : followed (x ++ y) = true) (hy : y ≠ []) (hy' : isCtl (y'.headD 0) = true) {a : Nat} {t : Tree Unit} (h : Lies (x ++ y) .flow a t x.length)
    (hr : t.render.headD 0 ≠ PIPE ∧ t.render.headD 0 ≠ GT) : Lies (x ++ y') .flow a t x.length := by
  obtain ⟨c1, c2, -⟩ := ctl_stops hy'
  have hlen : x.length < (x ++ y).length := by rw [List.length_append]; have := List.length_pos_iff.2 hy; omega
  have hgap : ∀ {a b}, FullGap (x ++ y) a b → b ≤ x.length → FullGap (x ++ y') a b := fun h hb => full_joint h hb hy c1 c2
  generalize hs : Spot.flow = s at h
  generalize he : x.length = e at h
  cases h with
  | scalar h1 h2 h3 h4 h5 =>
    subst he
    subst hs
    rw [← Joint.slice (t' := y') (by omega)]
    refine .scalar (hgap h1 h2) h2 (by simp) ?_ (by rw [h5]; exact (Joint.slice (by omega)).symm)
    rw [List.drop_left, append_slice (Nat.le_refl _)] at h4 ⊢
    exact token_ctl h4 hy'
  | «open» h1 h2 h3 h4 h5 => omega
  | lines h1 h2 h3 h4 h5 =>
    subst hs
    have := (Lies.lines (s := .flow) h1 h2 h3 h4 h5).notBlock h1 hr
    rw [h2.atBlock] at this
    cases this
  | empty => cases hs
  | dashes _ h => exact absurd hs.symm h
  | keys _ h => exact absurd hs.symm h.1
  | brackets h1 h2 h3 h4 h5 =>
    have := h1.le
    have h6 := h4.le
    have h7 := h3.le
    have h8 := h4.innerF (y' := y') hf (by omega)
    rw [← Joint.slice (t' := y') (by omega)] at h8
    rw [← Joint.slice (t' := y') (by omega)]
    exact .brackets (Inner.full h1 (by omega)) (by rw [Joint.get (by omega)]; exact h2) (Inner.full h3 (by omega)) h8 h5
  | braces h1 h2 h3 h4 h5 =>
    have := h1.le
    have h6 := h4.le
    have h7 := h3.le
    have h8 := h4.innerF (y' := y') hf (by omega)
    rw [← Joint.slice (t' := y') (by omega)] at h8
    rw [← Joint.slice (t' := y') (by omega)]
    exact .braces (Inner.full h1 (by omega)) (by rw [Joint.get (by omega)]; exact h2) (Inner.full h3 (by omega)) h8 h5

/-- The texts of the items of an inline collection, without the commas. -/
def Items.cellTexts {α : Type} (m : Bool) : Items α → List Bytes
  | .nil => []
  | .cons _ p key v rest => (itemSpace m p ++ (cellHead m key ++ v.text)) :: rest.cellTexts m

theorem Items.erase_cellTexts {α : Type} {m : Bool} : ∀ items : Items α, items.erase.cellTexts m = items.cellTexts m
  | .nil => rfl
  | .cons _ p key v rest => by simp only [Items.erase, Items.cellTexts, Items.erase_cellTexts rest, Tree.erase_text]

theorem Items.cellTexts_texts {m tr : Bool} {w : Bytes} : ∀ items : Items Nat, items.cellTexts m = items.texts m (.inline tr w)
  | .nil => rfl
  | .cons _ p key v rest => by
    rw [Items.cellTexts, Items.texts, Items.cellTexts_texts (tr := tr) (w := w) rest]
    cases m <;> simp [itemSpace, cellHead, itemText, Tree.text]

/-- The parts of what is written of an item that is written as it was read. -/
theorem cell_text {inp : Bytes} (A : Allows inp Tidied) {m last : Bool} (hm : (if m then LCB else LBR) ∈ inp) {key : RStr} {w' ip : Bytes} {n a e start n' hi : Nat} {blk tr : Bool} {v : Tree Unit} {rest : Items Unit}
    (h2 : CellHead inp (keyOf m key) n a) (h3 : m = true → key.write ++ [COLON] = cellKey inp true n a) (h5 : Lies inp .flow a v e) (h6 : NextCell inp m blk e last start n')
    (h7 : LiesCells inp m last (cellSpace inp m blk last e start n') n' rest tr w' hi) (h8 : rest.isNil = true → tr = !last)
    (he : inlineText m (.cons () ip key v rest) tr w' = itemSpace m ip ++ slice inp n hi) :
    n ≤ a ∧ a ≤ e ∧ e ≤ n' ∧ n' ≤ hi ∧ hi < inp.length ∧ cellHead m key = slice inp n a ∧ v.text = slice inp a e ∧
      (if (last && rest.isNil) = true then [] else [COMMA]) ++ inlineText m rest tr w' = slice inp e hi := by
  obtain ⟨g1, g2⟩ := A.cellHead (fun h => by rw [if_pos h] at hm; exact hm) h2 h3
  obtain ⟨k1, k2, k3⟩ := Lies.keeps A h5
  obtain ⟨k4, k5, o1, o2, k6, k7, k8⟩ := LiesCells.keeps A hm h7
  have hn := h6.le
  have hl : hi < inp.length := by
    rcases Nat.lt_or_ge hi inp.length with h | h
    · exact h
    · rw [List.getElem?_eq_none h] at k5; cases k5
  rw [inlineText_next _ _ _ _ _ _ _ _ h8, itemHead] at he
  simp only [List.append_assoc] at he
  have he := List.append_cancel_left he
  rw [← slice_append (a := n) g1 (by omega), ← slice_append (c := hi) k1 (by omega)] at he
  have T : Tidied (slice inp e hi) ((if (last && rest.isNil) = true then [] else [COMMA]) ++ inlineText m rest tr w') := by
    rw [k6, ← List.append_assoc, ← slice_append (c := hi) hn (by omega)]
    exact A.append (A.next h6 hm k7 (sep_or last rest.isNil)) k8
  obtain ⟨c1, he⟩ := g2.cut (k3.append T) he
  obtain ⟨c2, c3⟩ := k3.cut T he
  exact ⟨g1, k1, hn, k4, hl, c1, c2, c3⟩

/-- Where the next item is. -/
theorem cell_next {inp : Bytes} (A : Allows inp Tidied) {m last : Bool} (hm : (if m then LCB else LBR) ∈ inp) {w' : Bytes} {e start n' hi : Nat} {blk tr : Bool} {rest : Items Unit} (hl : e ≤ inp.length)
    (h6 : NextCell inp m blk e last start n') (h7 : LiesCells inp m last (cellSpace inp m blk last e start n') n' rest tr w' hi) (hn : rest.isNil = false)
    (he : (if (last && rest.isNil) = true then [] else [COMMA]) ++ inlineText m rest tr w' = slice inp e hi) :
    last = false ∧ inp.getD e 0 = COMMA ∧ [COMMA] ++ itemSpace m (cellSpace inp m blk last e start n') = slice inp e n' ∧
      inlineText m rest tr w' = itemSpace m (cellSpace inp m blk last e start n') ++ slice inp n' hi := by
  obtain ⟨o, o1, o2⟩ := h7.writes A hm hn
  rw [← inlineText_eq] at o1
  have h7l := h7.le
  have h6l := h6.le
  rw [hn, Bool.and_false, if_neg (by decide), o1, ← slice_append (c := hi) h6l (by omega), ← List.append_assoc] at he
  have T : Tidied (slice inp e n') ([COMMA] ++ itemSpace m (cellSpace inp m blk last e start n')) := A.next h6 hm (.inr rfl) (.inl rfl)
  obtain ⟨c3, c4⟩ := T.cut o2 he
  subst c4
  have hne : e < n' := by
    rcases Nat.lt_or_ge e n' with h | h
    · exact h
    · rw [slice_none h] at c3; cases c3
  have hc0 := slice_headD (inp := inp) hne
  rw [← c3] at hc0
  have hc : inp.getD e 0 = COMMA := hc0.symm
  clear hc0
  refine ⟨?_, hc, c3, o1⟩
  cases last with
  | false => rfl
  | true =>
    exfalso
    obtain ⟨c, -, ⟨h, -⟩ | ⟨-, -, -, h⟩⟩ := h6
    · cases h
    have := h.unique ⟨Gap.refl hl, by rw [hc]; decide, by rw [hc]; decide⟩
    omega

/-- The item is not a block scalar. -/
def Plain (t : Tree Unit) : Prop := t.render.headD 0 ≠ PIPE ∧ t.render.headD 0 ≠ GT

/-- An item that is not the first one, removed. -/
theorem LiesCells.cut {inp : Bytes} (A : Allows inp Tidied) (hf : followed inp = true) : ∀ (k : Nat) (items : Items Unit) {m : Bool} {w : Bytes} {n : Nat} {tr : Bool}
    {w' : Bytes} {hi : Nat} {kv kv' : RStr × Tree Unit}, (if m then LCB else LBR) ∈ inp → LiesCells inp m false w n items tr w' hi → items.pairs[k]? = some kv → items.pairs[k + 1]? = some kv' → Plain kv.2 → kv.2.render.headD 0 ≠ 0 → Plain kv'.2 →
    inlineText m items tr w' = itemSpace m w ++ slice inp n hi →
    ∃ e e' T, n < e ∧ e < e' ∧ e' ≤ hi ∧ hi < inp.length ∧ inlineText m (items.eraseIdx (k + 1)) tr w' = itemSpace m w ++ (slice inp n e ++ slice inp e' hi) ∧
      (items.cellTexts m)[k + 1]? = some T ∧ slice inp e e' = COMMA :: T ∧
      (k + 2 < items.pairs.length ∨ tr = true ∨ w' = [] → isCtl (inp.getD e' 0) = true) ∧
      (isCtl (inp.getD e' 0) = true → LiesCells (inp.take e ++ inp.drop e') m false w n (items.eraseIdx (k + 1)) tr w' (e + (hi - e')))
  | _, .nil, _, _, _, _, _, _, _, _, _, _, h, _, _, _, _, _ => by cases h
  | _, .cons _ _ _ _ .nil, _, _, _, _, _, _, _, _, _, _, _, h, _, _, _, _ => by cases h
  | 0, .cons _ ip key v (.cons _ ip1 key1 v1 rest), m, w, n, tr, w', hi, kv, kv', hm, h, hk, hk', z, z0, z', he => by
    cases hk
    cases hk'
    cases h with
    | cell h1 h2 h3 h4 h5 h6 h7 h8 =>
    rename_i last a b e start n'
    obtain ⟨l1, l2, l3, l4, l5, c1, c2, c3⟩ := cell_text A hm h2 h3 h5 h6 h7 h8 he
    obtain ⟨rfl, hco, c4, c5⟩ := cell_next A hm (by omega) h6 h7 rfl c3
    generalize hw1 : cellSpace inp m (atBlock inp b) false e start n' = w1 at h7 c4 c5
    cases h7 with
    | cell q1 q2 q3 q4 q5 q6 q7 q8 =>
    rename_i last1 a1 b1 e1 start1 n2
    obtain ⟨m1, m2, m3, m4, -, d1, d2, d3⟩ := cell_text A hm q2 q3 q5 q6 q7 q8 c5
    have hbl := h5.notBlock h4 z
    have hbl1 := q5.notBlock q4 z'
    have hlt : e < n' := by
      rcases Nat.lt_or_ge e n' with h | h
      · exact h
      · rw [slice_none h] at c4; cases c4
    have hae : a < e := by
      rcases Nat.lt_or_ge a e with h | h
      · exact h
      · rw [slice_none h, Tree.text, List.append_eq_nil_iff] at c2
        rw [c2.2] at z0
        exact absurd rfl z0
    refine ⟨e, e1, itemSpace m ip1 ++ (cellHead m key1 ++ v1.text), by omega, by omega, by omega, l5, ?_, rfl, ?_, ?_, ?_⟩
    · rw [Items.eraseIdx, Items.eraseIdx, inlineText_next (last := last1) (h := q8), itemHead, List.append_assoc (itemSpace m ip ++ cellHead m key ++ v.text), d3, c1, c2, ← slice_append (a := n) (c := e) l1 l2]
      simp
    · rw [← slice_append (a := e) (c := e1) l3 (by omega), ← c4, d1, d2, slice_append m1 m2]
      simp
    · intro h
      cases rest with
      | cons i2 p2 k2 v2 r2 =>
        obtain ⟨-, hco', -, -⟩ := cell_next A hm (by omega) q6 q7 rfl d3
        rw [hco']; decide
      | nil =>
        have htr := q8 rfl
        rw [inlineText_nil] at d3
        have hcl : inp[hi]? = some (close m) := by cases q7; assumption
        rcases Nat.lt_or_ge e1 hi with hh | hh
        · have hc := slice_headD (inp := inp) hh
          rw [← d3] at hc
          rw [← hc]
          rcases h with h | h | h
          · exact absurd h (by simp [Items.pairs])
          · rw [h] at htr
            cases last1 with
            | false => exact (by decide : isCtl COMMA = true)
            | true => cases htr
          · cases last1 with
            | false => exact (by decide : isCtl COMMA = true)
            | true =>
              have h9 := d3
              rw [h] at h9
              have h9 := congrArg List.length h9
              rw [slice_length (by omega)] at h9
              simp [Items.isNil] at h9
              omega
        · obtain rfl : e1 = hi := by omega
          rw [List.getD_eq_getElem?_getD, hcl]
          cases m <;> decide
    · intro hctl
      have hlen : (inp.take e).length = e := by rw [List.length_take]; omega
      have hlen1 : (inp.take e1).length = e1 := by rw [List.length_take]; omega
      have hcut := List.take_append_drop e inp
      have hcut1 := List.take_append_drop e1 inp
      have hy : inp.drop e ≠ [] := fun h => by have := congrArg List.length h; rw [List.length_drop] at this; simp at this; omega
      have hy' : isCtl ((inp.drop e1).headD 0) = true := by rw [List.headD_eq_head?_getD, List.head?_drop, ← List.getD_eq_getElem?_getD]; exact hctl
      obtain ⟨s1, s2, -⟩ := ctl_stops hy'
      have hL := Lies.ctl (x := inp.take e) (y := inp.drop e) (y' := inp.drop e1) (by rw [hcut]; exact hf) hy hy' (a := a) (t := v) (by rw [hcut, hlen]; exact h5) z
      have hG := full_joint (x := inp.take e) (y := inp.drop e) (y' := inp.drop e1) (a := a) (b := b) (by rw [hcut]; exact h4) (by have := h5.start_le h4; omega) hy s1 s2
      have hblk' := hL.notBlock hG z
      rw [hbl1] at q6 q7
      obtain ⟨st, n1, n3⟩ := mv_next (u := inp.take e1) (u' := inp.take e) (y := inp.drop e1) (m := m) (blk := false) (e := 0) (last := last1) (start := start1) (n := n2 - e1)
        (by rw [hcut1, hlen1, Nat.add_zero, show e1 + (n2 - e1) = n2 by omega]; exact q6)
      rw [hcut1, hlen1, Nat.add_zero, Nat.add_zero, show e1 + (n2 - e1) = n2 by omega] at n3
      rw [Nat.add_zero] at n1
      have hmv := LiesCells.moved (u := inp.take e1) (u' := inp.take e) (y := inp.drop e1) (by rw [hcut1]; exact hf) (lo := n2 - e1) (hi := hi - e1) (by rw [hcut1]; exact q7) (by omega) (by omega)
      rw [← n3] at hmv
      rw [hlen] at hmv n1 hL
      have j1 : Opens (inp.take e ++ inp.drop e1) m n := by
        unfold Opens; rw [Joint.getD (t := inp.drop e) (by omega), hcut]; exact h1
      have j2 := Joint.cellHead (x := inp.take e) (t := inp.drop e) (t' := inp.drop e1) (by rw [hcut]; exact h2) (by omega)
      refine .cell j1 j2 (fun hm => (h3 hm).trans (by rw [Joint.cellKey (x := inp.take e) (y := inp.drop e) (by omega), hcut])) hG hL (by rw [hblk']; exact n1) ?_ q8
      rw [hblk']
      exact hmv
  | k + 1, .cons _ ip key v (.cons i1 ip1 key1 v1 rest), m, w, n, tr, w', hi, kv, kv', hm, h, hk, hk', z, z0, z', he => by
    cases h with
    | cell h1 h2 h3 h4 h5 h6 h7 h8 =>
    rename_i last a b e start n'
    obtain ⟨l1, l2, l3, l4, l5, c1, c2, c3⟩ := cell_text A hm h2 h3 h5 h6 h7 h8 he
    obtain ⟨rfl, hco, c4, c5⟩ := cell_next A hm (by omega) h6 h7 rfl c3
    obtain ⟨e2, e', T, i1', i2, i3, i4, i5, i6, i7, i8, i9⟩ := LiesCells.cut A hf k (.cons i1 ip1 key1 v1 rest) hm h7 hk hk' z z0 z' c5
    have hlt : e < n' := by
      rcases Nat.lt_or_ge e n' with h | h
      · exact h
      · rw [slice_none h] at c4; cases c4
    have hnil : (Items.eraseIdx (.cons i1 ip1 key1 v1 rest) (k + 1)).isNil = false := rfl
    refine ⟨e2, e', T, by omega, i2, i3, i4, ?_, i6, i7, ?_, ?_⟩
    · rw [Items.eraseIdx, inlineText_next (last := false) (h := fun h => by rw [hnil] at h; cases h), itemHead, i5, Bool.false_and, if_neg (by decide), ← slice_append (a := n) (c := e2) l1 (by omega),
        ← slice_append (c := e2) l2 (by omega), ← slice_append (c := e2) l3 (by omega), ← c4, c1, c2]
      simp
    · intro h
      refine i8 (h.imp_left fun h => ?_)
      simp only [Items.pairs, List.length_cons] at h ⊢
      omega
    · intro hctl
      have hlen : (inp.take e2).length = e2 := by rw [List.length_take]; omega
      have hcut := List.take_append_drop e2 inp
      have h15 := i9 hctl
      obtain ⟨⟨q, h11, h12⟩, h13⟩ := Inner.nextCell (x := inp.take e2) (y := inp.drop e2) (y' := inp.drop e') (by omega : n' < _) (by rw [hcut]; exact h6)
      have h14 := h11.le
      have hb : b < (inp.take e2).length := by have := h5.start_le h4; omega
      have hat : atBlock (inp.take e2 ++ inp.drop e') b = atBlock inp b := by
        have := Joint.getD (x := inp.take e2) (t := inp.drop e2) (t' := inp.drop e') hb
        rw [hcut] at this
        unfold atBlock; rw [this]
      have hcs := Joint.cellSpace (x := inp.take e2) (y := inp.drop e2) (y' := inp.drop e') (m := m) (blk := atBlock inp b) (last := false) (e := e) (start := start) (n := n') (by omega)
      rw [hcut] at hcs
      rw [← hcs, ← hat] at h15
      rw [← hat] at h13
      have i1 : Opens (inp.take e2 ++ inp.drop e') m n := by
        unfold Opens; rw [Joint.getD (t := inp.drop e2) (by omega), hcut]; exact h1
      have i2 := Joint.cellHead (x := inp.take e2) (t := inp.drop e2) (t' := inp.drop e') (by rw [hcut]; exact h2) (by omega)
      exact .cell i1 i2 (fun hm => (h3 hm).trans (by rw [Joint.cellKey (x := inp.take e2) (y := inp.drop e2) (by omega), hcut])) (Inner.full (y := inp.drop e2) (by rw [hcut]; exact h4) (by omega))
        (Lies.innerF (y := inp.drop e2) (by rw [hcut]; exact hf) (by rw [hcut]; exact h5) rfl h11 (by omega)) h13 h15 (fun h => by rw [hnil] at h; cases h)

/-- Which items can be removed: the one with number `k` of `n`.  After the last one there is a comma or the bracket; the only one has no comma after it. -/
def Removable (k n : Nat) (tr : Bool) (w : Bytes) : Prop := k + 1 < n ∨ 0 < k ∧ (tr = true ∨ w = []) ∨ n = 1 ∧ tr = false

/-- An item removed, between the brackets. -/
theorem cells_cut {inp : Bytes} (A : Allows inp Tidied) (hf : followed inp = true) {m tr : Bool} {w : Bytes} {lo n hi k : Nat} {items : Items Unit} {kv : RStr × Tree Unit}
    (h2 : inp[lo]? = some (if m then LCB else LBR)) (h3 : FullGap inp (lo + 1) n) (h4 : LiesCells inp m false (slice inp (lo + 1) n) n items tr w hi)
    (hk : items.pairs[k]? = some kv) (hz : Plain kv.2) (hz' : ∀ kv', 0 < k → items.pairs[k - 1]? = some kv' → Plain kv'.2 ∧ kv'.2.render.headD 0 ≠ 0)
    (hr : openOf (.inline tr w) (if m then LCB else LBR) ++ items.render m (.inline tr w) ++ closeOf (.inline tr w) (if m then RCB else RBR) = slice inp lo (hi + 1))
    (R : Removable k items.pairs.length tr w) :
    ∃ e e' T, lo < e ∧ e < e' ∧ e' ≤ hi ∧ hi < inp.length ∧
      openOf (.inline tr w) (if m then LCB else LBR) ++ (items.eraseIdx k).render m (.inline tr w) ++ closeOf (.inline tr w) (if m then RCB else RBR) = slice inp lo e ++ slice inp e' (hi + 1) ∧
      (items.cellTexts m)[k]? = some T ∧ slice inp e e' = (if 0 < k then [COMMA] else []) ++ T ++ (if k = 0 ∧ 1 < items.pairs.length then [COMMA] else []) ∧
      ((items.eraseIdx k).isNil = true → tr = false) ∧
      ∃ n', FullGap (inp.take e ++ inp.drop e') (lo + 1) n' ∧ LiesCells (inp.take e ++ inp.drop e') m false (slice (inp.take e ++ inp.drop e') (lo + 1) n') n' (items.eraseIdx k) tr w (e + (hi - e')) := by
  have g3 := h3.le
  have g4 := h4.le
  have hn : items.isNil = false := by cases items with | nil => cases hk | cons => rfl
  have hm : (if m then LCB else LBR) ∈ inp := List.mem_of_getElem? h2
  obtain ⟨-, hc, -⟩ := LiesCells.keeps A hm h4
  have ho : openOf (.inline tr w) (if m then LCB else LBR) = slice inp lo (lo + 1) := by rw [slice_at h2]; rfl
  obtain ⟨o, o1, o2⟩ := h4.writes A hm hn
  have T := A.gapItem (m := m) h3
  rw [closeOf_inline _ _ _ items (fun h => by rw [hn] at h; cases h), ← slice_append (a := lo) (b := lo + 1) (by omega) (by omega), ← slice_append (a := lo + 1) (b := n) (by omega) (by omega),
    ← slice_append (a := n) (b := hi) (by omega) (by omega), slice_at hc, ho] at hr
  have hr' : slice inp lo (lo + 1) ++ ((items.render m (.inline tr w) ++ tailText items tr w) ++ [close m]) = slice inp lo (lo + 1) ++ ((slice inp (lo + 1) n ++ slice inp n hi) ++ [close m]) := by
    simpa using hr
  have hr' := List.append_cancel_right (List.append_cancel_left hr')
  rw [o1] at hr'
  obtain ⟨c1, rfl⟩ := T.cut o2 hr'
  rw [← inlineText_eq] at o1
  have hend : ∀ {its : Items Unit} {z : Bytes}, (its.isNil = true → tr = false) → inlineText m its tr w = z →
      openOf (.inline tr w) (if m then LCB else LBR) ++ its.render m (.inline tr w) ++ closeOf (.inline tr w) (if m then RCB else RBR) = slice inp lo (lo + 1) ++ (z ++ [close m]) := by
    intro its z h1 h2
    rw [closeOf_inline _ _ _ its h1, ho, ← h2, inlineText_eq]
    simp
  have hlast : ∀ {e'}, e' ≤ hi → slice inp e' (hi + 1) = slice inp e' hi ++ [close m] := fun h => by
    rw [← slice_append (b := hi) h (by omega), slice_at hc]
  cases k with
  | succ k =>
    obtain ⟨kv', hkv'⟩ : ∃ kv', items.pairs[k]? = some kv' := by
      have := (List.getElem?_eq_some_iff.1 hk).1
      exact ⟨_, List.getElem?_eq_getElem (by omega)⟩
    obtain ⟨z, z0⟩ := hz' kv' (by omega) hkv'
    have hlt := (List.getElem?_eq_some_iff.1 hk).1
    obtain ⟨e, e', T, i1, i2, i3, i4, i5, i6, i7, i8, i9⟩ := LiesCells.cut A hf k items hm h4 hkv' hk z z0 hz o1
    have hnil : (items.eraseIdx (k + 1)).isNil = false := by cases items with | nil => cases hk | cons => rfl
    have hctl := i8 (by
      rcases R with h | h | h
      · exact .inl h
      · exact .inr h.2
      · omega)
    have hlen : (inp.take e).length = e := by rw [List.length_take]; omega
    have hcut := List.take_append_drop e inp
    refine ⟨e, e', T, by omega, i2, i3, i4, ?_, i6, by rw [i7]; simp, (fun h => by rw [hnil] at h; cases h), n, ?_, ?_⟩
    · rw [hend (fun h => by rw [hnil] at h; cases h) i5, hlast i3, c1, ← slice_append (a := lo) (b := lo + 1) (c := e) (by omega) (by omega), ← slice_append (a := lo + 1) (b := n) (c := e) (by omega) (by omega)]
      simp
    · exact Inner.full (y := inp.drop e) (by rw [hcut]; exact h3) (by omega)
    · rw [Joint.slice (t := inp.drop e) (by omega), hcut]
      exact i9 hctl
  | zero =>
    cases items with
    | nil => cases hk
    | cons i p key v rest =>
    cases hk
    rw [Items.eraseIdx]
    cases h4 with
    | cell h1 q2 q3 q4 q5 q6 q7 q8 =>
    rename_i last a b e start n'
    obtain ⟨l1, l2, l3, l4, l5, d1, d2, d3⟩ := cell_text A hm q2 q3 q5 q6 q7 q8 o1
    have hbl := q5.notBlock q4 hz
    have hlen : (inp.take (lo + 1)).length = lo + 1 := by rw [List.length_take]; omega
    have hT : slice inp (lo + 1) e = itemSpace m (slice inp (lo + 1) n) ++ (cellHead m key ++ v.text) := by
      rw [← slice_append (a := lo + 1) (b := n) (c := e) (by omega) (by omega), ← slice_append (a := n) (c := e) l1 l2, c1, d1, d2]
    cases hrest : rest.isNil with
    | false =>
      obtain ⟨rfl, hco, c4, c5⟩ := cell_next A hm (by omega) q6 q7 hrest d3
      have hlt : e < n' := by
        rcases Nat.lt_or_ge e n' with h | h
        · exact h
        · rw [slice_none h] at c4; cases c4
      have hpos : 1 < (Items.cons () (slice inp (lo + 1) n) key v rest).pairs.length := by
        cases rest with
        | nil => cases hrest
        | cons => simp [Items.pairs]
      have hco' : inp[e]? = some COMMA := by
        rw [List.getD_eq_getElem?_getD] at hco
        rw [List.getElem?_eq_getElem (by omega)] at hco ⊢
        exact congrArg some hco
      obtain ⟨hgap, hst⟩ : FullGap inp (e + 1) n' ∧ start = e + 1 := by
        rw [hbl] at q6
        obtain ⟨c, q, ⟨-, j1, j2⟩ | ⟨h, -⟩⟩ := q6
        · have : c = e := by
            split at q
            · exact q.unique ⟨Gap.refl (by omega), by rw [hco]; decide, by rw [hco]; decide⟩
            · exact q
          subst this
          rw [Bool.false_and, if_neg (by decide)] at j2
          exact ⟨j2.2, j2.1⟩
        · cases h
      have hlen1 : (inp.take (e + 1)).length = e + 1 := by rw [List.length_take]; omega
      have hcut1 := List.take_append_drop (e + 1) inp
      have hcs : cellSpace inp m (atBlock inp b) false e start n' = slice inp (e + 1) n' := by rw [hbl, hst]; simp [cellSpace]
      have hgl := hgap.le
      have hmv := LiesCells.moved (u := inp.take (e + 1)) (u' := inp.take (lo + 1)) (y := inp.drop (e + 1)) (by rw [hcut1]; exact hf) (lo := n' - (e + 1)) (hi := hi - (e + 1)) (by rw [hcut1]; exact q7) (by omega) (by omega)
      have hsl := mv_slice (u := inp.take (e + 1)) (u' := inp.take (lo + 1)) (y := inp.drop (e + 1)) 0 (n' - (e + 1))
      have hfg := mv_full (u := inp.take (e + 1)) (u' := inp.take (lo + 1)) (y := inp.drop (e + 1)) (a := 0) (b := n' - (e + 1)) (by rw [hcut1, hlen1, show e + 1 + (n' - (e + 1)) = n' by omega]; exact hgap)
      rw [hcut1, hlen1, hlen, Nat.add_zero, Nat.add_zero, show e + 1 + (n' - (e + 1)) = n' by omega] at hsl
      rw [hcs, ← hsl] at hmv
      rw [hlen] at hmv hfg
      have hcomma : slice inp e (e + 1) = [COMMA] := slice_at hco'
      refine ⟨lo + 1, e + 1, _, by omega, by omega, by omega, l5, ?_, rfl, ?_, (fun h => by cases h), _, hfg, hmv⟩
      · rw [hend (fun h => by rw [hrest] at h; cases h) c5, hlast (by omega)]
        have : itemSpace m (cellSpace inp m (atBlock inp b) false e start n') = slice inp (e + 1) n' := by
          rw [← slice_append (a := e) (b := e + 1) (c := n') (by omega) (by omega), hcomma] at c4
          exact List.append_cancel_left c4
        rw [this, ← slice_append (a := e + 1) (b := n') (c := hi) (by omega) (by omega)]
      · rw [← slice_append (a := lo + 1) (b := e) (c := e + 1) (by omega) (by omega), hcomma, hT, if_neg (by omega : ¬ 0 < 0), if_pos ⟨rfl, hpos⟩]
        simp
    | true =>
      have hnil : rest = .nil := by cases rest with | nil => rfl | cons => cases hrest
      subst hnil
      have htr : tr = false := by
        rcases R with h | h | h
        · exact absurd h (by simp [Items.pairs])
        · exact absurd h.1 (by omega)
        · exact h.2
      have hlast1 : last = true := by have := q8 rfl; rw [htr] at this; cases last <;> first | rfl | cases this
      subst hlast1
      rw [inlineText_nil] at d3
      have d3 : w = slice inp e hi := d3
      obtain rfl : n' = hi := by cases q7; rfl
      have hgap : FullGap inp e n' := by
        obtain ⟨c, -, ⟨h, -⟩ | ⟨-, -, -, h⟩⟩ := q6
        · cases h
        · exact h
      have hlen1 : (inp.take e).length = e := by rw [List.length_take]; omega
      have hcut1 := List.take_append_drop e inp
      have hpos : lo + 1 < e := by
        rcases Nat.lt_or_ge (lo + 1) e with h | h
        · exact h
        · exfalso
          obtain rfl : e = lo + 1 := by omega
          obtain rfl := h3.unique hgap
          refine h1.1 ?_
          rw [List.getD_eq_getElem?_getD, hc]; rfl
      have hsl := mv_slice (u := inp.take e) (u' := inp.take (lo + 1)) (y := inp.drop e) 0 (n' - e)
      have hfg := mv_full (u := inp.take e) (u' := inp.take (lo + 1)) (y := inp.drop e) (a := 0) (b := n' - e) (by rw [hcut1, hlen1, show e + (n' - e) = n' by omega]; exact hgap)
      rw [hcut1, hlen1, hlen, Nat.add_zero, Nat.add_zero, show e + (n' - e) = n' by omega] at hsl
      rw [hlen] at hfg
      refine ⟨lo + 1, e, _, by omega, hpos, by omega, l5, ?_, rfl, ?_, (fun _ => htr), _, hfg, ?_⟩
      · rw [hend (fun _ => htr) (inlineText_nil _ _ _), hlast (by omega), d3]
      · rw [hT]
        simp [Items.pairs]
      · simp only [Nat.add_zero] at hsl
        rw [hsl, ← d3]
        refine .none ?_
        have := sh_get (inp.take (lo + 1)) (inp.drop e) (n' - e)
        rw [hlen] at this
        rw [this, List.getElem?_drop, show e + (n' - e) = n' by omega]
        exact hc

/-- An inline collection without one of its items. -/
theorem Lies.cutF {inp : Bytes} (A : Allows inp Tidied) (hf : followed inp = true) {s : Spot} {m tr : Bool} {ind : Nat} {w pre : Bytes} {a b d k : Nat} {items : Items Unit} {kv : RStr × Tree Unit}
    (h : Lies inp s a (.node () pre m ind (.inline tr w) items) d) (hg : FullGap inp a b)
    (hk : items.pairs[k]? = some kv) (hz : Plain kv.2) (hz' : ∀ kv', 0 < k → items.pairs[k - 1]? = some kv' → Plain kv'.2 ∧ kv'.2.render.headD 0 ≠ 0)
    (hr : openOf (.inline tr w) (if m then LCB else LBR) ++ items.render m (.inline tr w) ++ closeOf (.inline tr w) (if m then RCB else RBR) = slice inp b d)
    (R : Removable k items.pairs.length tr w) :
    ind = 0 ∧ inp[b]? = some (if m then LCB else LBR) ∧ ∃ e e' T, b < e ∧ e < e' ∧ e' < d ∧ d ≤ inp.length ∧
      openOf (.inline tr w) (if m then LCB else LBR) ++ (items.eraseIdx k).render m (.inline tr w) ++ closeOf (.inline tr w) (if m then RCB else RBR) = slice inp b e ++ slice inp e' d ∧
      (items.cellTexts m)[k]? = some T ∧ slice inp e e' = (if 0 < k then [COMMA] else []) ++ T ++ (if k = 0 ∧ 1 < items.pairs.length then [COMMA] else []) ∧
      Lies (inp.take e ++ inp.drop e') s a (.node () pre m ind (.inline tr w) (items.eraseIdx k)) (e + (d - e')) := by
  have key : ∀ {e e' : Nat}, b < e → e ≤ inp.length → ∀ hx : inp[b]? = some (if m then LCB else LBR),
      FullGap (inp.take e ++ inp.drop e') a b ∧ (inp.take e ++ inp.drop e')[b]? = some (if m then LCB else LBR) ∧ slice (inp.take e ++ inp.drop e') a b = slice inp a b := by
    intro e e' k1 k2 k5
    have hlen : (inp.take e).length = e := by rw [List.length_take]; omega
    have hcut := List.take_append_drop e inp
    exact ⟨Inner.full (y := inp.drop e) (by rw [hcut]; exact hg) (by omega), by rw [Joint.get (t := inp.drop e) (by omega), hcut]; exact k5, by rw [Joint.slice (t := inp.drop e) (by omega), hcut]⟩
  cases h with
  | brackets h1 h2 h3 h4 h5 =>
    rename_i lo n hi
    obtain rfl := h1.unique hg
    obtain ⟨e, e', T, i1, i2, i3, i4, i5, i6, i7, i8, n', i9, i10⟩ := cells_cut A hf (m := false) h2 h3 h4 hk hz hz' hr R
    refine ⟨rfl, h2, e, e', T, i1, i2, by omega, by omega, i5, i6, i7, ?_⟩
    obtain ⟨j1, j2, j3⟩ := key (e := e) (e' := e') i1 (by omega) h2
    rw [← j3, show e + (hi + 1 - e') = e + (hi - e') + 1 by omega]
    exact .brackets j1 j2 i9 i10 i8
  | braces h1 h2 h3 h4 h5 =>
    rename_i lo n hi
    obtain rfl := h1.unique hg
    obtain ⟨e, e', T, i1, i2, i3, i4, i5, i6, i7, i8, n', i9, i10⟩ := cells_cut A hf (m := true) h2 h3 h4 hk hz hz' hr R
    refine ⟨rfl, h2, e, e', T, i1, i2, by omega, by omega, i5, i6, i7, ?_⟩
    obtain ⟨j1, j2, j3⟩ := key (e := e) (e' := e') i1 (by omega) h2
    rw [← j3, show e + (hi + 1 - e') = e + (hi - e') + 1 by omega]
    exact .braces j1 j2 i9 i10 i8

end Verif
