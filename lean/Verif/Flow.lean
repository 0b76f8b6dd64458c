import Verif.NestDocs
import Verif.CutDocs
/-
A new item at the end of an inline collection anywhere in a text.  Used in proofs only; nothing here is part of the Rust code.
-/
namespace Verif

mutual
/-- What is in an inline collection, with another text after it. -/
theorem Lies.innerF {x y y' : Bytes} (hf : followed (x ++ y) = true) {s : Spot} {t : Tree Unit} {a e q : Nat} :
    Lies (x ++ y) s a t e → s = .flow → FullGap (x ++ y) e q → q < x.length → Lies (x ++ y') s a t e
  | .scalar h1 h2 h3 h4 h5, hs, hg, hq => by
    have := hg.le
    rw [← Joint.slice (t' := y') (by omega)]
    exact .scalar (Inner.full h1 (by omega)) h2 (Nat.le_of_lt (Inner.len (by omega) _)) (Inner.token hg hq h4) (by rw [h5]; exact (Joint.slice (by omega)).symm)
  | .open h1 h2 h3 h4 h5, hs, hg, hq => by
    have := hg.le
    have := Inner.len hq y
    omega
  | .lines h1 h2 h3 h4 h5, hs, hg, hq => by
    have := hg.le
    have := h2.le
    rw [← Joint.slice (t' := y') (by omega)]
    refine .lines (Inner.full h1 (by omega)) (Inner.block h2 hg hq) h3 (Nat.le_of_lt (Inner.len (by omega) _)) ?_
    rcases h5 with h5 | ⟨h5, -⟩
    · exact .inl (by rw [h5]; exact (Joint.slice (by omega)).symm)
    · rw [hf] at h5; cases h5
  | .empty h1 h2 h3, hs, hg, hq => by cases hs
  | .dashes h1 h2 h3, hs, hg, hq => absurd hs h2
  | .keys h1 h2 h3, hs, hg, hq => absurd hs h2.1
  | .brackets h1 h2 h3 h4 h5, hs, hg, hq => by
    have := h1.le
    have h6 := h4.le
    have h7 := h3.le
    have := hg.le
    have h8 := h4.innerF (y' := y') hf (by omega)
    rw [← Joint.slice (t' := y') (by omega)] at h8
    rw [← Joint.slice (t' := y') (by omega)]
    exact .brackets (Inner.full h1 (by omega)) (by rw [Joint.get (by omega)]; exact h2) (Inner.full h3 (by omega)) h8 h5
  | .braces h1 h2 h3 h4 h5, hs, hg, hq => by
    have := h1.le
    have h6 := h4.le
    have h7 := h3.le
    have := hg.le
    have h8 := h4.innerF (y' := y') hf (by omega)
    rw [← Joint.slice (t' := y') (by omega)] at h8
    rw [← Joint.slice (t' := y') (by omega)]
    exact .braces (Inner.full h1 (by omega)) (by rw [Joint.get (by omega)]; exact h2) (Inner.full h3 (by omega)) h8 h5
theorem LiesCells.innerF {x y y' : Bytes} (hf : followed (x ++ y) = true) {m last : Bool} {w : Bytes} {items : Items Unit} {tr : Bool} {w' : Bytes} {n hi : Nat} :
    LiesCells (x ++ y) m last w n items tr w' hi → hi < x.length → LiesCells (x ++ y') m last w n items tr w' hi
  | .none h, hq => .none (by rw [Joint.get hq]; exact h)
  | .final h1 h2 h3 h4 h5 h6, hq => by
    have h7 := h4.le
    have h9 := h2.le
    have h10 := h5.le
    rw [← Joint.slice (t' := y') (by omega)]
    exact .final (by unfold Opens; rw [Joint.getD (by omega)]; exact h1) (Joint.cellHead h2 (by omega)) (fun hm => (h3 hm).trans (Joint.cellKey (by omega)).symm)
      (h4.innerF hf rfl h5 (by omega)) (Inner.full h5 (by omega)) (by rw [Joint.get hq]; exact h6)
  | .cell (b := b) (start := start) h1 h2 h3 h0 h4 h5 h6 h8, hq => by
    have h7 := h4.le
    have h9 := h2.le
    have h10 := h6.le
    obtain ⟨⟨q, h11, h12⟩, h13⟩ := Inner.nextCell (y' := y') (by omega) h5
    have h14 := h11.le
    have hb : b < x.length := by have := h4.start_le h0; omega
    have h15 := h6.innerF (y' := y') hf hq
    have hat : atBlock (x ++ y') b = atBlock (x ++ y) b := by unfold atBlock; rw [Joint.getD hb]
    rw [← Joint.cellSpace (y' := y') (by omega), ← hat] at h15
    rw [← hat] at h13
    exact .cell (by unfold Opens; rw [Joint.getD (by omega)]; exact h1) (Joint.cellHead h2 (by omega)) (fun hm => (h3 hm).trans (Joint.cellKey (by omega)).symm) (Inner.full h0 (by omega))
      (h4.innerF hf rfl h11 (by omega)) h13 h15 h8
end

/-- White space and comments, with something else than that after them. -/
theorem full_joint {x y y' : Bytes} {a b : Nat} (h : FullGap (x ++ y) a b) (hb : b ≤ x.length) (hy : y ≠ []) (h1 : isWs (y'.headD 0) = false) (h2 : y'.headD 0 ≠ HASH) : FullGap (x ++ y') a b := by
  rcases Nat.lt_or_ge b x.length with h' | h'
  · exact Inner.full h h'
  · obtain rfl : b = x.length := by omega
    obtain ⟨⟨g1, g2, g3⟩, g4, g5⟩ := h
    have hl : (x ++ y').getD x.length 0 = y'.headD 0 := Joint.at0 _ _
    refine ⟨⟨g1, by simp, .inl ?_⟩, by rw [hl]; exact h1, by rw [hl]; exact h2⟩
    rw [Joint.slice (t := y) (Nat.le_refl _)]
    rcases g3 with g3 | ⟨g3, -⟩
    · exact g3
    · have := List.length_pos_iff.2 hy
      rw [List.length_append] at g3
      omega

theorem not_number_comma (s : Bytes) : isNumber (s ++ [COMMA]) = false := by
  rw [Bool.eq_false_iff]
  intro h
  rcases isNumber_chars h COMMA (by simp) with h | h <;> exact absurd h (by decide)

theorem token_comma {r r' s : Bytes} {a : AnyV} (h : Token true r s a) (hr : r'.headD 0 = COMMA) : Token true r' s a := by
  cases h with
  | number h1 h2 => exact .number h1 (by rw [if_pos rfl, hr]; exact not_number_comma _)
  | plain h1 h2 =>
    refine .plain h1 ?_
    unfold plainText at h2 ⊢
    rw [if_pos rfl] at h2 ⊢
    rw [hr]
    simp only [Bool.and_eq_true] at h2 ⊢
    exact ⟨h2.1, h2.2.1, by decide⟩
  | quoted h1 h2 h3 => exact .quoted h1 (fun h => by cases h) (fun _ => by rw [hr]; decide)

theorem Lies.notBlock {inp : Bytes} {a b e : Nat} {t : Tree Unit} (h : Lies inp .flow a t e) (hb : FullGap inp a b) (hr : t.render.headD 0 ≠ PIPE ∧ t.render.headD 0 ≠ GT) : atBlock inp b = false := by
  have key : ∀ {c : UInt8}, inp.getD b 0 = c → c ≠ PIPE ∧ c ≠ GT → atBlock inp b = false := by
    intro c h1 h2
    unfold atBlock
    rw [h1, beq_eq_false_iff_ne.2 h2.1, beq_eq_false_iff_ne.2 h2.2]; rfl
  cases h with
  | scalar h1 h2 h3 h4 h5 =>
    rename_i sc lo
    obtain rfl := h1.unique hb
    rw [show Tree.render (.leaf () (slice inp a lo) sc) = sc.write by simp [Tree.render], h5] at hr
    rcases Nat.lt_or_ge lo e with hlt | hge
    · rw [slice_headD hlt] at hr
      exact key rfl hr
    · obtain rfl : e = lo := by omega
      rw [slice_none (Nat.le_refl _)] at h4
      generalize sc.value = av at h4
      generalize hsl : ([] : Bytes) = z at h4
      cases h4 with
      | number h1 => subst hsl; exact absurd h1 (by decide)
      | plain g1 g2 =>
        unfold plainText at g2
        rw [show Spot.inline .flow = true from rfl, if_pos rfl] at g2
        simp only [Bool.and_eq_true] at g2
        have g3 := g2.2.2
        rw [List.headD_eq_head?_getD, List.head?_drop, ← List.getD_eq_getElem?_getD] at g3
        refine key rfl ⟨fun hc => ?_, fun hc => ?_⟩ <;> (rw [hc] at g3; exact absurd g3 (by decide))
      | quoted h1 => subst hsl; rcases inQuotes_hd h1 with h | h <;> cases h
  | «open» h1 h2 h3 h4 h5 =>
    rename_i sc ps lo
    obtain rfl := h1.unique hb
    refine key (c := DQ) ?_ (by decide)
    rw [List.getD_eq_getElem?_getD, ← List.head?_drop, h3]; rfl
  | lines h1 h2 h3 h4 h5 =>
    rename_i sc v lo
    obtain rfl := h1.unique hb
    have hl := h2.bounds
    rw [show Tree.render (.leaf () (slice inp a lo) sc) = sc.write by simp [Tree.render]] at hr
    rcases h5 with h5 | ⟨-, -, h5⟩ <;> rw [h5, slice_headD (by omega)] at hr <;> exact key rfl hr
  | dashes _ h => exact absurd rfl h
  | keys _ h => exact absurd rfl h.1
  | brackets h1 h2 _ _ _ =>
    obtain rfl := h1.unique hb
    exact key (c := LBR) (by rw [List.getD_eq_getElem?_getD, h2]; rfl) (by decide)
  | braces h1 h2 _ _ _ =>
    obtain rfl := h1.unique hb
    exact key (c := LCB) (by rw [List.getD_eq_getElem?_getD, h2]; rfl) (by decide)

/-- A value of an inline collection, with a comma after it. -/
theorem Lies.comma {x y y' : Bytes} (hf : followed (x ++ y) = true) (hy : y ≠ []) (hy' : y'.headD 0 = COMMA) {a : Nat} {t : Tree Unit} (h : Lies (x ++ y) .flow a t x.length)
    (hr : t.render.headD 0 ≠ PIPE ∧ t.render.headD 0 ≠ GT) : Lies (x ++ y') .flow a t x.length := by
  have hlen : x.length < (x ++ y).length := by rw [List.length_append]; have := List.length_pos_iff.2 hy; omega
  have hgap : ∀ {a b}, FullGap (x ++ y) a b → b ≤ x.length → FullGap (x ++ y') a b := fun h hb => full_joint h hb hy (by rw [hy']; decide) (by rw [hy']; decide)
  generalize hs : Spot.flow = s at h
  generalize he : x.length = e at h
  cases h with
  | scalar h1 h2 h3 h4 h5 =>
    subst he
    subst hs
    rw [← Joint.slice (t' := y') (by omega)]
    refine .scalar (hgap h1 h2) h2 (by simp) ?_ (by rw [h5]; exact (Joint.slice (by omega)).symm)
    rw [List.drop_left, append_slice (Nat.le_refl _)] at h4 ⊢
    exact token_comma h4 hy'
  | «open» h1 h2 h3 h4 h5 => omega
  | lines h1 h2 h3 h4 h5 =>
    subst hs
    have := (Lies.lines (s := .flow) h1 h2 h3 h4 h5).notBlock h1 hr
    rw [h2.atBlock] at this
    cases this
  | empty => cases hs
  | dashes _ h => exact absurd hs.symm h
  | keys _ h => exact absurd hs.symm h.1
  | brackets h1 h2 h3 h4 h5 =>
    have := h1.le
    have h6 := h4.le
    have h7 := h3.le
    have h8 := h4.innerF (y' := y') hf (by omega)
    rw [← Joint.slice (t' := y') (by omega)] at h8
    rw [← Joint.slice (t' := y') (by omega)]
    exact .brackets (Inner.full h1 (by omega)) (by rw [Joint.get (by omega)]; exact h2) (Inner.full h3 (by omega)) h8 h5
  | braces h1 h2 h3 h4 h5 =>
    have := h1.le
    have h6 := h4.le
    have h7 := h3.le
    have h8 := h4.innerF (y' := y') hf (by omega)
    rw [← Joint.slice (t' := y') (by omega)] at h8
    rw [← Joint.slice (t' := y') (by omega)]
    exact .braces (Inner.full h1 (by omega)) (by rw [Joint.get (by omega)]; exact h2) (Inner.full h3 (by omega)) h8 h5

theorem lies_midF {H A T R : Bytes} {s : Spot} {sc : Scalar} (hA : FullGap (H ++ A ++ T ++ R) H.length (H ++ A).length) (hs : s.inline = true) (hw : sc.write = T) (ht : Token true R T sc.value) :
    Lies (H ++ A ++ T ++ R) s H.length (.leaf () A sc) (H ++ A ++ T).length := by
  have h1 : slice (H ++ A ++ T ++ R) (H ++ A).length (H ++ A ++ T).length = T := by
    rw [slice, List.append_assoc (H ++ A), List.drop_left, List.length_append (as := H ++ A), Nat.add_sub_cancel_left, List.take_left]
  have h2 : slice (H ++ A ++ T ++ R) H.length (H ++ A).length = A := by
    rw [slice, List.append_assoc (H ++ A), List.append_assoc H, List.drop_left, List.length_append, Nat.add_sub_cancel_left, List.take_left]
  have h3 := Lies.scalar (s := s) (sc := sc) (inp := H ++ A ++ T ++ R) (hi := (H ++ A ++ T).length) hA (by simp) (by simp) (by rw [hs, List.drop_left, h1]; exact ht) (by rw [h1]; exact hw)
  rw [h2] at h3
  exact h3

/-- The text of a new item of an inline collection (`m`: a mapping), with the comma before it. -/
def newCell (m : Bool) (key : RStr) (sep text : Bytes) : Bytes := COMMA :: NL :: (cellHead m key ++ sep ++ text)

/-- What a new item of an inline collection has to be, with `rest` after it. -/
structure CellOk (m : Bool) (key : RStr) (sep text rest : Bytes) (a : AnyV) : Prop where
  key : m = true → key.write = key.id ∧ keyFlow key.id = true
  bare : m = false → sep = []
  sep : gap sep = true
  token : Token true rest text a
  nul : text.headD 0 ≠ 0

theorem flowKey_iff {k : Bytes} : keyFlow k = true ↔ k ≠ [] ∧ COLON ∉ k ∧ 0 ∉ k ∧ isWs (k.headD 0) = false ∧ k.headD 0 ≠ HASH ∧ k.headD 0 ≠ RCB := by
  simp [keyFlow, and_assoc]

section
variable {m : Bool} {key : RStr} {sep text rest : Bytes} {a : AnyV} (R : CellOk m key sep text rest a)
include R

theorem CellOk.head : ∃ b r, cellHead m key ++ sep ++ text = b :: r ∧ isWs b = false ∧ b ≠ HASH ∧ b ≠ close m ∧ b ≠ 0 := by
  cases m with
  | false =>
    have hst := R.token.starts R.nul
    have h0 := R.nul
    rw [R.bare rfl]
    cases text with
    | nil => exact absurd rfl h0
    | cons b r =>
      refine ⟨b, r, rfl, hst.1, hst.2.1, ?_, h0⟩
      rintro rfl
      exact absurd (hst.2.2.2.2 rfl) (show ¬ isCtl (close false) = false by decide)
  | true =>
    obtain ⟨h1, h2⟩ := R.key rfl
    obtain ⟨h3, -, h7, h4, h5, h6⟩ := flowKey_iff.1 h2
    unfold cellHead
    rw [if_pos rfl, h1]
    cases hk : key.id with
    | nil => exact absurd hk h3
    | cons b r =>
      rw [hk] at h4 h5 h6 h7
      refine ⟨b, r ++ [COLON] ++ sep ++ text, by simp, h4, h5, h6, ?_⟩
      rintro rfl
      exact h7 (List.mem_cons_self ..)

/-- The new item is in the text. -/
theorem CellOk.cell (x : Bytes) (w : Bytes) {sc : Scalar} (hv : sc.value = a) (hw : sc.write = text) {last tr : Bool} {st n' hi : Nat} {w' : Bytes}
    (hn : NextCell (x ++ newCell m key sep text ++ rest) m false (x ++ newCell m key sep text).length last st n')
    (hc : cellSpace (x ++ newCell m key sep text ++ rest) m false last (x ++ newCell m key sep text).length st n' = w')
    (hnil : LiesCells (x ++ newCell m key sep text ++ rest) m last w' n' .nil tr w' hi) (htr : tr = !last) :
    LiesCells (x ++ newCell m key sep text ++ rest) m false w (x ++ [COMMA, NL]).length (.cons () w key (.leaf () sep sc) .nil) tr w' hi := by
  have hst := R.token.starts R.nul
  have hG := full_mid (H := x ++ [COMMA, NL] ++ cellHead m key) (A := sep) (R := text ++ rest) R.sep
    (by rw [headD_first R.nul]; exact hst.1) (by rw [headD_first R.nul]; exact hst.2.1)
  rw [← List.append_assoc] at hG
  have hS := lies_midF (s := .flow) (sc := sc) hG rfl hw (by rw [hv]; exact R.token)
  have e2 : x ++ [COMMA, NL] ++ cellHead m key ++ sep ++ text ++ rest = x ++ newCell m key sep text ++ rest := by simp [newCell]
  have e3 : x ++ [COMMA, NL] ++ cellHead m key ++ sep ++ text = x ++ newCell m key sep text := by simp [newCell]
  have hat : atBlock (x ++ newCell m key sep text ++ rest) (x ++ [COMMA, NL] ++ cellHead m key ++ sep).length = false := by
    have : (x ++ newCell m key sep text ++ rest).getD (x ++ [COMMA, NL] ++ cellHead m key ++ sep).length 0 = text.headD 0 := by
      rw [← e2, List.append_assoc _ text, Joint.at0, headD_first R.nul]
    unfold atBlock
    rw [this, beq_eq_false_iff_ne.2 hst.2.2.1, beq_eq_false_iff_ne.2 hst.2.2.2.1]; rfl
  rw [e2, e3] at hS
  rw [e2] at hG
  refine .cell ?_ ?_ ?_ hG hS (by rw [hat]; exact hn) (by rw [hat, hc]; exact hnil) (fun _ => htr)
  · obtain ⟨b, r, h1, -, -, h2, h3⟩ := R.head
    have : (x ++ newCell m key sep text ++ rest).getD (x ++ [COMMA, NL]).length 0 = b := by
      rw [show x ++ newCell m key sep text ++ rest = x ++ [COMMA, NL] ++ (cellHead m key ++ sep ++ text ++ rest) by simp [newCell], Joint.at0, h1]
      rfl
    unfold Opens
    rw [this]
    exact ⟨h2, h3⟩
  · cases m with
    | false => simp [cellHead, keyOf, CellHead]
    | true =>
      obtain ⟨h1, h2⟩ := R.key rfl
      obtain ⟨-, h3, h4, -⟩ := flowKey_iff.1 h2
      have e4 : x ++ newCell true key sep text ++ rest = x ++ [COMMA, NL] ++ (key.id ++ (COLON :: (sep ++ text ++ rest))) := by simp [newCell, cellHead, h1]
      refine ⟨(x ++ [COMMA, NL] ++ key.id).length, by simp, .inl ?_, by simp [cellHead, h1]; omega, ?_, h3, h4⟩
      · rw [e4, ← List.append_assoc, List.getElem?_append_right (Nat.le_refl _)]; simp
      · rw [e4, slice, List.drop_left, List.length_append (bs := key.id), Nat.add_sub_cancel_left, List.take_left]
  · rintro rfl
    obtain ⟨h1, h2⟩ := R.key rfl
    have e4 : x ++ newCell true key sep text ++ rest = x ++ [COMMA, NL] ++ (key.id ++ (COLON :: (sep ++ text ++ rest))) := by simp [newCell, cellHead, h1]
    have e5 : (x ++ [COMMA, NL] ++ cellHead true key).length - 1 = (x ++ [COMMA, NL] ++ key.id).length := by simp [cellHead, h1]
    rw [cellKey, if_pos rfl, e5, e4, slice, List.drop_left, List.length_append (bs := key.id), Nat.add_sub_cancel_left, List.take_left, h1]
end

/-- What is written of the items of an inline collection. -/
theorem LiesCells.writes {inp : Bytes} (A : Allows inp Tidied) {m last : Bool} (hm : (if m then LCB else LBR) ∈ inp) {w : Bytes} {n : Nat} {items : Items Unit} {tr : Bool} {w' : Bytes} {hi : Nat}
    (h : LiesCells inp m last w n items tr w' hi) (hn : items.isNil = false) :
    ∃ o, items.render m (.inline tr w') ++ tailText items tr w' = itemSpace m w ++ o ∧ Tidied (slice inp n hi) o := by
  rw [← inlineText_eq]
  cases h with
  | none h => cases hn
  | final h1 h2 h3 h4 h5 h6 =>
    rename_i key a e v
    obtain ⟨g1, g2⟩ := A.cellHead (fun h => by rw [if_pos h] at hm; exact hm) h2 h3
    obtain ⟨k1, k2, k3⟩ := Lies.keeps A h4
    refine ⟨cellHead m key ++ (v.text ++ slice inp e hi), ?_, ?_⟩
    · rw [inlineText_last, itemHead]; simp
    · rw [← slice_append (a := n) g1 (by have := h5.le; omega), ← slice_append (c := hi) k1 (by have := h5.le; omega)]
      exact A.append g2 (A.append k3 (A.refl _))
  | cell h1 h2 h3 h4 h5 h6 h7 h8 =>
    rename_i key last a b e start n' v items
    obtain ⟨g1, g2⟩ := A.cellHead (fun h => by rw [if_pos h] at hm; exact hm) h2 h3
    obtain ⟨k1, k2, k3⟩ := Lies.keeps A h5
    obtain ⟨k4, k5, o1, o2, k6, k7, k8⟩ := LiesCells.keeps A hm h7
    have hn := h6.le
    refine ⟨cellHead m key ++ (v.text ++ ((if (last && items.isNil) = true then [] else [COMMA]) ++ o1 ++ o2)), ?_, ?_⟩
    · rw [inlineText_next _ _ _ _ _ _ _ _ h8, itemHead, k6]; simp
    · rw [← slice_append (a := n) g1 (by omega), ← slice_append (c := hi) k1 (by omega), ← slice_append (c := hi) hn (by omega)]
      refine A.append g2 (A.append k3 (A.append (A.next h6 hm k7 ?_) k8))
      split
      · next h => rw [Bool.and_eq_true] at h; exact .inr ⟨h.1, rfl⟩
      · exact .inl rfl

/-- The last item of an inline collection. -/
def Items.lastV {α : Type} : Items α → Option (Tree α)
  | .nil => none
  | .cons _ _ _ v .nil => some v
  | .cons _ _ _ _ (.cons i p k v r) => Items.lastV (.cons i p k v r)

/-- A new item after the last one of an inline collection. -/
theorem LiesCells.add {inp : Bytes} (A : Allows inp Tidied) (hf : followed inp = true) : ∀ (items : Items Unit) {m : Bool} {w : Bytes} {n : Nat} {tr : Bool}
    {w' : Bytes} {hi : Nat} {z : Tree Unit}, (if m then LCB else LBR) ∈ inp → LiesCells inp m false w n items tr w' hi → items.lastV = some z → z.render.headD 0 ≠ 0 → z.render.headD 0 ≠ PIPE → z.render.headD 0 ≠ GT →
    items.render m (.inline tr w') ++ tailText items tr w' = itemSpace m w ++ slice inp n hi →
    ∃ e, n < e ∧ e ≤ hi ∧ items.render m (.inline tr w') = itemSpace m w ++ slice inp n e ∧ tailText items tr w' = slice inp e hi ∧
      ∀ key sep sc, CellOk m key sep sc.write (inp.drop e) sc.value →
        LiesCells (inp.take e ++ newCell m key sep sc.write ++ inp.drop e) m false w n (items.append (.cons () [NL] key (.leaf () sep sc) .nil)) tr w' (hi + (newCell m key sep sc.write).length)
  | .nil, _, _, _, _, _, _, _, _, h, hz, _, _, _, _ => by cases hz
  | .cons _ ip key v rest, m, w, n, tr, w', hi, z, hm, h, hz, z0, z1, z2, he => by
    cases h with
    | cell h1 h2 h3 h4 h5 h6 h7 h8 =>
    rename_i last a b e start n'
    have hl := h6.le
    have hl7 := h7.le
    obtain ⟨g1, g2⟩ := A.cellHead (fun h => by rw [if_pos h] at hm; exact hm) h2 h3
    obtain ⟨k1, k2, k3⟩ := Lies.keeps A h5
    rw [render_cons, headText_inline] at he
    simp only [List.append_assoc] at he
    have he := List.append_cancel_left he
    rw [← slice_append (a := n) g1 (by omega), ← slice_append (c := hi) k1 (by omega), ← slice_append (c := hi) hl (by omega)] at he
    cases rest with
    | nil =>
      obtain rfl : v = z := Option.some.inj hz
      obtain ⟨rfl, rfl⟩ : n' = hi ∧ w' = cellSpace inp m (atBlock inp b) last e start n' := by cases h7; exact ⟨rfl, rfl⟩
      have hcl : inp[n']? = some (close m) := by cases h7; assumption
      have htr : tr = !last := h8 rfl
      have e1 : sepOf (CollKind.inline tr (cellSpace inp m (atBlock inp b) last e start n')) (Items.nil (α := Unit)).isNil = [] := rfl
      rw [e1] at he
      have T : Tidied (slice inp e n') (tailText (Items.cons () ip key v .nil) tr (cellSpace inp m (atBlock inp b) last e start n')) := by
        have := A.next h6 hm (o := cellSpace inp m (atBlock inp b) last e start n') (sep := if last then [] else [COMMA]) (.inl rfl) (by cases last <;> simp)
        rw [tailText, htr]
        cases last <;> exact this
      rw [slice_none (Nat.le_refl n'), List.append_nil] at he
      obtain ⟨c1, he⟩ := g2.cut (k3.append T) (by simpa [Items.render] using he)
      obtain ⟨c2, c3⟩ := k3.cut T he
      have hlt : a < e := by
        rcases Nat.lt_or_ge a e with h | h
        · exact h
        · rw [slice_none h, Tree.text, List.append_eq_nil_iff] at c2
          rw [c2.2] at z0
          exact absurd rfl z0
      refine ⟨e, by omega, hl, ?_, c3, fun key' sep sc R => ?_⟩
      · rw [render_cons, headText_inline, e1, ← slice_append (a := n) (c := e) g1 k1, c1, c2]
        simp [Items.render]
      · have hlen : (inp.take e).length = e := by rw [List.length_take]; omega
        have hcut := List.take_append_drop e inp
        have hy : inp.drop e ≠ [] := fun h => by have := congrArg List.length h; rw [List.length_drop] at this; simp at this; omega
        have hblk := h5.notBlock h4 ⟨z1, z2⟩
        rw [hblk] at h6 h7 c3 ⊢
        have hL := Lies.comma (x := inp.take e) (y := inp.drop e) (y' := newCell m key' sep sc.write ++ inp.drop e) (by rw [hcut]; exact hf) hy rfl (a := a) (t := v) (by rw [hcut, hlen]; exact h5) ⟨z1, z2⟩
        have hG := full_joint (x := inp.take e) (y := inp.drop e) (y' := newCell m key' sep sc.write ++ inp.drop e) (a := a) (b := b) (by rw [hcut]; exact h4) (by have := h5.start_le h4; omega) hy
          (by show isWs COMMA = false; decide) (by show COMMA ≠ HASH; decide)
        have hblk' := hL.notBlock hG ⟨z1, z2⟩
        obtain ⟨st, n1, n2⟩ := mv_next (u := inp.take e) (u' := inp.take e ++ newCell m key' sep sc.write) (y := inp.drop e) (m := m) (blk := false) (e := 0) (last := last) (start := start) (n := n' - e)
          (by rw [hcut, hlen, Nat.add_zero, show e + (n' - e) = n' by omega]; exact h6)
        rw [hcut, hlen, Nat.add_zero, Nat.add_zero, show e + (n' - e) = n' by omega] at n2
        rw [Nat.add_zero] at n1
        have hend : (inp.take e ++ newCell m key' sep sc.write).length + (n' - e) = n' + (newCell m key' sep sc.write).length := by rw [List.length_append, hlen]; omega
        have hcl' : (inp.take e ++ newCell m key' sep sc.write ++ inp.drop e)[n' + (newCell m key' sep sc.write).length]? = some (close m) := by
          rw [← hend, sh_get, List.getElem?_drop, show e + (n' - e) = n' by omega]
          exact hcl
        rw [hend] at n1 n2
        have hnew := R.cell (inp.take e) [NL] rfl rfl n1 n2 (.none hcl') htr
        have hhd := R.head
        generalize hYdef : newCell m key' sep sc.write = Y at *
        obtain ⟨b1, r1, y1, y2, y3, -, -⟩ := hhd
        have hY : Y = COMMA :: NL :: b1 :: r1 := by rw [← hYdef, newCell, y1]
        rw [List.append_assoc] at hnew ⊢
        have j1 : Opens (inp.take e ++ (Y ++ inp.drop e)) m n := by
          unfold Opens; rw [Joint.getD (t := inp.drop e) (by omega), hcut]; exact h1
        have j2 := Joint.cellHead (x := inp.take e) (t := inp.drop e) (t' := Y ++ inp.drop e) (by rw [hcut]; exact h2) (by omega)
        have j3 : (inp.take e ++ (Y ++ inp.drop e))[e]? = some COMMA := by
          rw [List.getElem?_append_right (by omega), hlen, Nat.sub_self, hY]; rfl
        have j4 : FullGap (inp.take e ++ (Y ++ inp.drop e)) (e + 1) (e + 2) := by
          have := full_mid (H := inp.take e ++ [COMMA]) (A := [NL]) (R := b1 :: r1 ++ inp.drop e) (by decide) y2 y3
          simp only [List.length_append, hlen, List.length_cons, List.length_nil] at this
          rw [hY]
          simpa using this
        have j5 : slice (inp.take e ++ (Y ++ inp.drop e)) (e + 1) (e + 2) = [NL] := by
          have := sh_slice (inp.take e) (Y ++ inp.drop e) 1 2
          rw [hlen] at this
          rw [this, hY]; rfl
        have j6 : NextCell (inp.take e ++ (Y ++ inp.drop e)) m (atBlock (inp.take e ++ (Y ++ inp.drop e)) b) e false (e + 1) (e + 2) := by
          rw [hblk']
          refine ⟨e, ?_, .inl ⟨rfl, j3, ?_⟩⟩
          · split
            · have : (inp.take e ++ (Y ++ inp.drop e)).getD e 0 = COMMA := by rw [List.getD_eq_getElem?_getD, j3]; rfl
              exact ⟨Gap.refl (by rw [List.length_append]; omega), by rw [this]; decide, by rw [this]; decide⟩
            · rfl
          · exact ⟨rfl, j4⟩
        rw [show (inp.take e ++ [COMMA, NL]).length = e + 2 by rw [List.length_append, hlen]; rfl] at hnew
        rw [hlen] at hL
        refine .cell j1 j2 (fun hm => (h3 hm).trans (by rw [Joint.cellKey (x := inp.take e) (y := inp.drop e) (by omega), hcut])) hG hL j6 ?_ (fun h => by cases h)
        have j7 : cellSpace (inp.take e ++ (Y ++ inp.drop e)) m (atBlock (inp.take e ++ (Y ++ inp.drop e)) b) false e (e + 1) (e + 2) = [NL] := by
          rw [hblk', cellSpace]
          exact j5
        rw [j7]
        exact hnew
    | cons i2 p2 key2 v2 rest =>
      obtain ⟨o, o1, o2⟩ := h7.writes A hm rfl
      have htail : tailText (Items.cons () ip key v (.cons i2 p2 key2 v2 rest)) tr w' = tailText (Items.cons i2 p2 key2 v2 rest) tr w' := rfl
      rw [htail, o1] at he
      have hsep : sepOf (CollKind.inline tr w') (Items.cons i2 p2 key2 v2 rest).isNil = [COMMA] := rfl
      rw [hsep] at he
      have T : Tidied (slice inp e n') ([COMMA] ++ itemSpace m (cellSpace inp m (atBlock inp b) last e start n')) := A.next h6 hm (.inr rfl) (.inl rfl)
      obtain ⟨c1, he⟩ := g2.cut (k3.append (T.append o2)) (by simpa using he)
      obtain ⟨c2, he⟩ := k3.cut (T.append o2) (by simpa using he)
      obtain ⟨c3, c4⟩ := T.cut o2 (by simpa using he)
      subst c4
      cases last with
      | true =>
        exfalso
        obtain ⟨c, -, ⟨h, -⟩ | ⟨-, -, -, h⟩⟩ := h6
        · cases h
        have hne : e < n' := by
          rcases Nat.lt_or_ge e n' with h | h
          · exact h
          · rw [slice_none h] at c3; cases c3
        have hc := slice_headD (inp := inp) hne
        rw [← c3] at hc
        have hc : inp.getD e 0 = COMMA := hc.symm
        have := h.unique ⟨Gap.refl k2, by rw [hc]; decide, by rw [hc]; decide⟩
        omega
      | false =>
      obtain ⟨e2, i1, i2', i3, i4, i5⟩ := LiesCells.add A hf (.cons i2 p2 key2 v2 rest) hm h7 hz z0 z1 z2 o1
      refine ⟨e2, by omega, i2', ?_, i4, fun key' sep sc R => ?_⟩
      · rw [render_cons, headText_inline, i3, hsep, ← slice_append (a := n) (c := e2) g1 (by omega), ← slice_append (c := e2) k1 (by omega), ← slice_append (c := e2) hl (by omega), ← c3, c1, c2]
        simp
      · have hlen : (inp.take e2).length = e2 := by rw [List.length_take]; omega
        have hcut := List.take_append_drop e2 inp
        have h15 := i5 key' sep sc R
        generalize newCell m key' sep sc.write = Y at *
        rw [List.append_assoc] at h15 ⊢
        obtain ⟨⟨q, h11, h12⟩, h13⟩ := Inner.nextCell (x := inp.take e2) (y := inp.drop e2) (y' := Y ++ inp.drop e2) (by omega : n' < _) (by rw [hcut]; exact h6)
        have h14 := h11.le
        have hb : b < (inp.take e2).length := by have := h5.start_le h4; omega
        have hat : atBlock (inp.take e2 ++ (Y ++ inp.drop e2)) b = atBlock inp b := by
          have := Joint.getD (x := inp.take e2) (t := inp.drop e2) (t' := Y ++ inp.drop e2) hb
          rw [hcut] at this
          unfold atBlock; rw [this]
        have hcs := Joint.cellSpace (x := inp.take e2) (y := inp.drop e2) (y' := Y ++ inp.drop e2) (m := m) (blk := atBlock inp b) (last := false) (e := e) (start := start) (n := n') (by omega)
        rw [hcut] at hcs
        rw [← hcs, ← hat] at h15
        rw [← hat] at h13
        have i1 : Opens (inp.take e2 ++ (Y ++ inp.drop e2)) m n := by
          unfold Opens; rw [Joint.getD (t := inp.drop e2) (by omega), hcut]; exact h1
        have i2 := Joint.cellHead (x := inp.take e2) (t := inp.drop e2) (t' := Y ++ inp.drop e2) (by rw [hcut]; exact h2) (by omega)
        exact .cell i1 i2 (fun hm => (h3 hm).trans (by rw [Joint.cellKey (x := inp.take e2) (y := inp.drop e2) (by omega), hcut])) (Inner.full (y := inp.drop e2) (by rw [hcut]; exact h4) (by omega))
          (Lies.innerF (y := inp.drop e2) (by rw [hcut]; exact hf) (by rw [hcut]; exact h5) rfl h11 (by omega)) h13 h15 (fun h => by cases h)

/-- The items of an inline collection and a new one, between the brackets. -/
theorem cells_add {inp : Bytes} (A : Allows inp Tidied) (hf : followed inp = true) {m tr : Bool} {w : Bytes} {lo n hi : Nat} {items : Items Unit} {z : Tree Unit}
    (h2 : inp[lo]? = some (if m then LCB else LBR)) (h3 : FullGap inp (lo + 1) n) (h4 : LiesCells inp m false (slice inp (lo + 1) n) n items tr w hi) (hz : items.lastV = some z)
    (z0 : z.render.headD 0 ≠ 0) (z1 : z.render.headD 0 ≠ PIPE) (z2 : z.render.headD 0 ≠ GT)
    (hr : openOf (.inline tr w) (if m then LCB else LBR) ++ items.render m (.inline tr w) ++ closeOf (.inline tr w) (if m then RCB else RBR) = slice inp lo (hi + 1)) :
    ∃ e, n < e ∧ e ≤ hi ∧ openOf (.inline tr w) (if m then LCB else LBR) ++ items.render m (.inline tr w) = slice inp lo e ∧ closeOf (.inline tr w) (if m then RCB else RBR) = slice inp e (hi + 1) ∧
      ∀ key sep sc, CellOk m key sep sc.write (inp.drop e) sc.value →
        LiesCells (inp.take e ++ newCell m key sep sc.write ++ inp.drop e) m false (slice inp (lo + 1) n) n (items.append (.cons () [NL] key (.leaf () sep sc) .nil)) tr w
          (hi + (newCell m key sep sc.write).length) := by
  have g3 := h3.le
  have g4 := h4.le
  have hn : items.isNil = false := by cases items with | nil => cases hz | cons => rfl
  have hm : (if m then LCB else LBR) ∈ inp := List.mem_of_getElem? h2
  obtain ⟨-, hc, -⟩ := LiesCells.keeps A hm h4
  have ho : openOf (.inline tr w) (if m then LCB else LBR) = slice inp lo (lo + 1) := by rw [slice_at h2]; rfl
  obtain ⟨o, o1, o2⟩ := h4.writes A hm hn
  have T := A.gapItem (m := m) h3
  rw [closeOf_inline _ _ _ items (fun h => by rw [hn] at h; cases h), ← slice_append (a := lo) (b := lo + 1) (by omega) (by omega), ← slice_append (a := lo + 1) (b := n) (by omega) (by omega),
    ← slice_append (a := n) (b := hi) (by omega) (by omega), slice_at hc, ho] at hr
  have hr' : slice inp lo (lo + 1) ++ ((items.render m (.inline tr w) ++ tailText items tr w) ++ [close m]) = slice inp lo (lo + 1) ++ ((slice inp (lo + 1) n ++ slice inp n hi) ++ [close m]) := by
    simpa using hr
  have hr' := List.append_cancel_right (List.append_cancel_left hr')
  have h5 := hr'
  rw [o1] at h5
  obtain ⟨c1, rfl⟩ := T.cut o2 h5
  obtain ⟨e, i1, i2, i3, i4, i5⟩ := LiesCells.add A hf items hm h4 hz z0 z1 z2 o1
  refine ⟨e, i1, i2, ?_, ?_, i5⟩
  · rw [ho, i3, c1, ← slice_append (a := lo) (b := lo + 1) (c := e) (by omega) (by omega), ← slice_append (a := lo + 1) (b := n) (c := e) (by omega) (by omega)]
  · rw [closeOf_inline _ _ _ items (fun h => by rw [hn] at h; cases h), i4, ← slice_append (a := e) (b := hi) (c := hi + 1) (by omega) (by omega), slice_at hc]

theorem append_notNil {α : Type} (items : Items α) (i : α) (p : Bytes) (k : RStr) (v : Tree α) : (items.append (.cons i p k v .nil)).isNil = false := by
  cases items <;> rfl

/-- An inline collection with a new item. -/
theorem Lies.add {inp : Bytes} (A : Allows inp Tidied) (hf : followed inp = true) {s : Spot} {m tr : Bool} {ind : Nat} {w pre : Bytes} {a b d : Nat} {items : Items Unit} {z : Tree Unit}
    (h : Lies inp s a (.node () pre m ind (.inline tr w) items) d) (hg : FullGap inp a b) (hz : items.lastV = some z)
    (z0 : z.render.headD 0 ≠ 0) (z1 : z.render.headD 0 ≠ PIPE) (z2 : z.render.headD 0 ≠ GT)
    (hr : openOf (.inline tr w) (if m then LCB else LBR) ++ items.render m (.inline tr w) ++ closeOf (.inline tr w) (if m then RCB else RBR) = slice inp b d) :
    ind = 0 ∧ inp[b]? = some (if m then LCB else LBR) ∧ ∃ e, b < e ∧ e < d ∧ openOf (.inline tr w) (if m then LCB else LBR) ++ items.render m (.inline tr w) = slice inp b e ∧
      closeOf (.inline tr w) (if m then RCB else RBR) = slice inp e d ∧ 
      ∀ key sep sc, CellOk m key sep sc.write (inp.drop e) sc.value →
        Lies (inp.take e ++ newCell m key sep sc.write ++ inp.drop e) s a (.node () pre m ind (.inline tr w) (items.append (.cons () [NL] key (.leaf () sep sc) .nil)))
          (d + (newCell m key sep sc.write).length) := by
  have key : ∀ {n e : Nat} {Y : Bytes}, b + 1 ≤ n → n < e → e ≤ inp.length → FullGap inp (b + 1) n → ∀ hx : inp[b]? = some (if m then LCB else LBR),
      FullGap (inp.take e ++ Y ++ inp.drop e) a b ∧ (inp.take e ++ Y ++ inp.drop e)[b]? = some (if m then LCB else LBR) ∧ FullGap (inp.take e ++ Y ++ inp.drop e) (b + 1) n ∧
        slice (inp.take e ++ Y ++ inp.drop e) a b = slice inp a b ∧ slice (inp.take e ++ Y ++ inp.drop e) (b + 1) n = slice inp (b + 1) n := by
    intro n e Y k1 k2 k3 k4 k5
    have hlen : (inp.take e).length = e := by rw [List.length_take]; omega
    have hcut := List.take_append_drop e inp
    rw [List.append_assoc]
    refine ⟨Inner.full (y := inp.drop e) (by rw [hcut]; exact hg) (by omega), by rw [Joint.get (t := inp.drop e) (by omega), hcut]; exact k5,
      Inner.full (y := inp.drop e) (by rw [hcut]; exact k4) (by omega), by rw [Joint.slice (t := inp.drop e) (by omega), hcut], by rw [Joint.slice (t := inp.drop e) (by omega), hcut]⟩
  cases h with
  | brackets h1 h2 h3 h4 h5 =>
    rename_i lo n hi
    obtain rfl := h1.unique hg
    have g3 := h3.le
    have g4 := h4.le
    obtain ⟨e, i1, i2, i3, i4, i5⟩ := cells_add A hf (m := false) h2 h3 h4 hz z0 z1 z2 hr
    refine ⟨rfl, h2, e, by omega, by omega, i3, i4, fun k sep sc R => ?_⟩
    obtain ⟨j1, j2, j3, j4, j5⟩ := key (Y := newCell false k sep sc.write) g3.1 i1 (by omega) h3 h2
    have i6 := i5 k sep sc R
    rw [← j5] at i6
    rw [← j4, show hi + 1 + (newCell false k sep sc.write).length = hi + (newCell false k sep sc.write).length + 1 by omega]
    exact .brackets j1 j2 j3 i6 (fun h => by rw [append_notNil] at h; cases h)
  | braces h1 h2 h3 h4 h5 =>
    rename_i lo n hi
    obtain rfl := h1.unique hg
    have g3 := h3.le
    have g4 := h4.le
    obtain ⟨e, i1, i2, i3, i4, i5⟩ := cells_add A hf (m := true) h2 h3 h4 hz z0 z1 z2 hr
    refine ⟨rfl, h2, e, by omega, by omega, i3, i4, fun k sep sc R => ?_⟩
    obtain ⟨j1, j2, j3, j4, j5⟩ := key (Y := newCell true k sep sc.write) g3.1 i1 (by omega) h3 h2
    have i6 := i5 k sep sc R
    rw [← j5] at i6
    rw [← j4, show hi + 1 + (newCell true k sep sc.write).length = hi + (newCell true k sep sc.write).length + 1 by omega]
    exact .braces j1 j2 j3 i6 (fun h => by rw [append_notNil] at h; cases h)

end Verif
