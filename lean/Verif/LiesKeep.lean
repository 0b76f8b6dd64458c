import Verif.Lies
import Verif.Props.RoundTrip
/-
What is written before, for and after a value, against the text it was read from.
-/
namespace Verif

/-- What is written of an item of an inline collection before the white space before its value. -/
def cellHead (m : Bool) (key : RStr) : Bytes := if m then key.write ++ [COLON] else []

/-- What is written before the value of an item. -/
def headText (m : Bool) (k : CollKind) (p : Bytes) (key : RStr) : Bytes :=
  if m then p ++ key.write ++ [COLON] else lossy p ++ (if k = .block then [DASH] else [])

mutual
/-- The value `u` is a part of the value: before it there is `A`, after it `B`.  With another value in its place it is as `F` says. -/
inductive Part {α : Type} : Tree α → Bytes → Tree α → Bytes → (F : Tree α → Tree α) → Prop
  | here {t : Tree α} : Part t [] t [] (fun w => w)
  | inside {i : α} {p : Bytes} {m : Bool} {ind : Nat} {k : CollKind} {items : Items α} {A : Bytes} {u : Tree α} {B : Bytes} {G : Tree α → Items α} :
    PartItems m k items A u B G →
    Part (.node i p m ind k items) (p ++ openOf k (if m then LCB else LBR) ++ A) u (B ++ closeOf k (if m then RCB else RBR)) (fun w => .node i p m ind k (G w))
inductive PartItems {α : Type} : Bool → CollKind → Items α → Bytes → Tree α → Bytes → (G : Tree α → Items α) → Prop
  | head {m : Bool} {k : CollKind} {i : α} {p : Bytes} {key : RStr} {v : Tree α} {rest : Items α} {A : Bytes} {u : Tree α} {B : Bytes} {F : Tree α → Tree α} :
    Part v A u B F →
    PartItems m k (.cons i p key v rest) (headText m k p key ++ A) u (B ++ sepOf k rest.isNil ++ rest.render m k) (fun w => .cons i p key (F w) rest)
  | tail {m : Bool} {k : CollKind} {i : α} {p : Bytes} {key : RStr} {v : Tree α} {rest : Items α} {A : Bytes} {u : Tree α} {B : Bytes} {G : Tree α → Items α} :
    PartItems m k rest A u B G →
    PartItems m k (.cons i p key v rest) (headText m k p key ++ v.text ++ sepOf k rest.isNil ++ A) u B (fun w => .cons i p key v (G w))
end

section
variable {inp : Bytes} {R : Bytes → Bytes → Prop}

theorem slice_none {a b : Nat} (h : b ≤ a) : slice inp a b = [] := by
  simp [slice, Nat.sub_eq_zero_of_le h]

/-- Before white space or a comment there is a boundary between characters. -/
theorem FullGap.cut {e n : Nat} (h : FullGap inp e n) : slice inp e n = [] ∨ slice inp e n = wsStr inp e ∧ e ≤ inp.length ∧ Cut inp e := by
  by_cases hn : n ≤ e
  · exact .inl (slice_none hn)
  · refine .inr ⟨by rw [wsStr, h.eq], by have := h.le; omega, .inl ?_⟩
    have h1 := h.eq
    have hlt : e < inp.length := by have := h.le; omega
    by_cases hs : isWs (peekAt inp e) = true
    · exact isWs_ascii hs
    · by_cases hh : peekAt inp e = HASH
      · rw [hh]; decide
      · exfalso
        have : wsEnd inp e = e := FullGap.eq ⟨Gap.refl (by omega), by rw [getD_peek]; simpa using hs, by rw [getD_peek]; exact hh⟩
        omega

theorem Allows.gapLossy (A : Allows inp R) {e n : Nat} (h : FullGap inp e n) : R (slice inp e n) (Verif.lossy (slice inp e n)) := by
  rcases h.cut with h | ⟨h, h1, h2⟩
  · rw [h]; exact A.refl []
  · rw [h]; exact A.lossy e h1 h2

theorem Allows.gapItem (A : Allows inp R) {m : Bool} {e n : Nat} (h : FullGap inp e n) : R (slice inp e n) (itemSpace m (slice inp e n)) := by
  cases m with
  | true => exact A.refl _
  | false => exact A.gapLossy h

theorem Allows.gapLost (A : Allows inp R) (hm : LCB ∈ inp) {e n : Nat} (h : FullGap inp e n) : R (slice inp e n) [] := by
  rcases h.cut with h | ⟨h, h1, h2⟩
  · rw [h]; exact A.refl []
  · rw [h]; exact A.lost hm e h1 h2

theorem Allows.gapSwap (A : Allows inp R) (hm : LBR ∈ inp) {e c : Nat} (h : FullGap inp e c) (hc : inp[c]? = some COMMA) {o : Bytes}
    (ho : o = slice inp e c ∨ o = Verif.lossy (slice inp e c)) : R (slice inp e c ++ [COMMA]) (COMMA :: o) := by
  rcases h.cut with h1 | ⟨h1, h2, h3⟩
  · rw [h1] at ho ⊢
    have : o = [] := by rcases ho with rfl | rfl <;> rfl
    rw [this]
    exact A.refl _
  · cases hn : noWsComma inp with
    | true =>
      have := ws_comma hn (n := e) (by rw [h.eq]; exact some_peek hc)
      rw [h1, this] at ho ⊢
      have : o = [] := by rcases ho with rfl | rfl <;> rfl
      rw [this]
      exact A.refl _
    | false =>
      rw [h1] at ho ⊢
      exact A.swap hn hm e h2 h3 o ho

theorem slice_at {n : Nat} {b : UInt8} (h : inp[n]? = some b) : slice inp n (n + 1) = [b] := by
  have := some_peek h
  rw [slice_one (List.getElem?_eq_some_iff.1 h).1, this]

/-- What is between two items of an inline collection, and what is written there. -/
theorem Allows.next (A : Allows inp R) {m blk last : Bool} {e start n : Nat} (h : NextCell inp m blk e last start n) (hm : (if m then LCB else LBR) ∈ inp) {o sep : Bytes}
    (ho : o = cellSpace inp m blk last e start n ∨ o = itemSpace m (cellSpace inp m blk last e start n)) (hs : sep = [COMMA] ∨ last = true ∧ sep = []) :
    R (slice inp e n) (sep ++ o) := by
  have comma : R [] [COMMA] := A.comma (by cases m <;> simp_all)
  obtain ⟨c, h1, ⟨rfl, h2, h3⟩ | ⟨rfl, -, h3, h4⟩⟩ := h
  · have hs : sep = [COMMA] := by rcases hs with h | ⟨h, -⟩; exact h; cases h
    subst hs
    cases m with
    | true =>
      simp only [Bool.true_or, if_true, Bool.not_true, Bool.and_false, Bool.false_eq_true, if_false] at h1 h3
      obtain ⟨rfl, h3⟩ := h3
      have ho : o = slice inp (c + 1) n := by rcases ho with rfl | rfl <;> exact cellSpace_map
      rw [ho, ← slice_append (a := e) (b := c) (c := n) h1.le.1 (by have := h3.le.1; omega), ← slice_append (a := c) (b := c + 1) (c := n) (by omega) h3.le.1, slice_at h2]
      exact A.append (b := []) (A.gapLost hm h1) (A.refl _)
    | false =>
      cases blk with
      | false =>
        simp only [Bool.or_false, Bool.false_eq_true, if_false, Bool.false_and] at h1 h3
        obtain rfl := h1
        obtain ⟨rfl, h3⟩ := h3
        rw [← slice_append (a := c) (b := c + 1) (c := n) (by omega) h3.le.1, slice_at h2]
        refine A.append (A.refl _) ?_
        rcases ho with rfl | rfl
        · exact A.refl _
        · exact A.gapLossy h3
      | true =>
        simp only [Bool.or_true, if_true, Bool.not_false, Bool.and_true] at h1 h3
        obtain ⟨rfl, rfl⟩ := h3
        rw [← slice_append (a := e) (b := c) (c := c + 1) h1.le.1 (by omega), slice_at h2]
        exact A.gapSwap hm h1 h2 ho
  · have hsep : R [] sep := by rcases hs with rfl | ⟨-, rfl⟩; exact comma; exact A.refl []
    refine A.append (a := []) hsep ?_
    cases m with
    | true =>
      simp only [Bool.true_or, if_true] at h1 h3
      obtain rfl : c = n := by rw [← h1.eq, h4.eq]
      have ho : o = [] := by rcases ho with rfl | rfl <;> (rw [cellSpace_map] <;> rw [h3]; exact slice_none (Nat.le_refl _))
      rw [ho]
      exact A.gapLost hm h4
    | false =>
      rw [if_neg (by decide)] at h3
      rw [h3] at ho
      rw [show cellSpace inp false blk true e e n = slice inp e n by simp [cellSpace]] at ho
      rcases ho with rfl | rfl
      · exact A.refl _
      · exact A.gapLossy h4

theorem Allows.cellHead (A : Allows inp R) {m : Bool} {key : RStr} {n a : Nat} (hm : m = true → LCB ∈ inp) (h : CellHead inp (keyOf m key) n a)
    (hk : m = true → key.write ++ [COLON] = cellKey inp true n a) : n ≤ a ∧ R (slice inp n a) (Verif.cellHead m key) := by
  cases m with
  | false => cases (show a = n from h); exact ⟨Nat.le_refl _, by rw [slice_none (Nat.le_refl _)]; exact A.refl _⟩
  | true =>
    obtain ⟨q, h1, h2, rfl, -⟩ := h
    refine ⟨by omega, ?_⟩
    rw [Verif.cellHead, if_pos rfl, hk rfl, cellKey, if_pos rfl, Nat.add_sub_cancel, ← slice_append (a := n) (b := q) (c := q + 1) h1 (by omega)]
    refine A.append (A.refl _) ?_
    rcases h2 with h2 | h2
    · rw [slice_at h2]; exact A.refl _
    · rw [slice_at h2]; exact A.nul (hm rfl) (List.mem_of_getElem? h2)

theorem headText_block (m : Bool) (p : Bytes) (key : RStr) : headText m .block p key = itemSpace m p ++ rowHead m key := by
  cases m <;> simp [headText, itemSpace, rowHead]

theorem headText_inline (m : Bool) (tr : Bool) (w p : Bytes) (key : RStr) : headText m (.inline tr w) p key = itemSpace m p ++ cellHead m key := by
  cases m <;> simp [headText, itemSpace, cellHead]

theorem render_cons {α : Type} (m : Bool) (k : CollKind) (i : α) (p : Bytes) (key : RStr) (v : Tree α) (rest : Items α) :
    (Items.cons i p key v rest).render m k = headText m k p key ++ v.text ++ sepOf k rest.isNil ++ rest.render m k := by
  simp [Items.render, headText, Tree.text]

theorem itemHead (m : Bool) (p : Bytes) (key : RStr) : (if m then p ++ key.write ++ [COLON] else lossy p) = itemSpace m p ++ cellHead m key := by
  cases m <;> simp [itemSpace, cellHead]

theorem inlineText_next (m : Bool) (ip : Bytes) (key : RStr) (v : Tree Unit) (items : Items Unit) (tr last : Bool) (w : Bytes)
    (h : items.isNil = true → tr = !last) : inlineText m (.cons () ip key v items) tr w =
      (if m then ip ++ key.write ++ [COLON] else lossy ip) ++ v.text ++ (if (last && items.isNil) = true then [] else [COMMA]) ++ inlineText m items tr w := by
  have := inlineText_more m ip key v items tr last w (if items.isNil then 0 else 1) 0 h (by cases items.isNil <;> simp)
  rw [this]
  cases last <;> cases items.isNil <;> simp

theorem coll_keeps (A : Allows inp R) {m : Bool} {a lo n hi : Nat} {o1 o2 : Bytes} (h1 : FullGap inp a lo) (h2 : inp[lo]? = some (if m then LCB else LBR))
    (h3 : FullGap inp (lo + 1) n) (hn : n ≤ hi) (hc : inp[hi]? = some (close m)) (ho : o1 = slice inp (lo + 1) n ∨ o1 = itemSpace m (slice inp (lo + 1) n))
    (hr : R (slice inp n hi) o2) : a ≤ hi + 1 ∧ hi + 1 ≤ inp.length ∧
      R (slice inp a (hi + 1)) (slice inp a lo ++ (if m then LCB else LBR) :: (o1 ++ o2 ++ [if m then RCB else RBR])) := by
  have g1 := h1.le
  have g3 := h3.le
  refine ⟨by omega, (List.getElem?_eq_some_iff.1 hc).1, ?_⟩
  rw [← slice_append (a := a) (c := hi + 1) g1.1 (by omega), ← slice_append (a := lo) (b := lo + 1) (c := hi + 1) (by omega) (by omega),
    ← slice_append (a := lo + 1) (c := hi + 1) g3.1 (by omega), ← slice_append (a := n) (c := hi + 1) hn (by omega), slice_at h2, slice_at hc]
  have ho : R (slice inp (lo + 1) n) o1 := by
    rcases ho with rfl | rfl
    · exact A.refl _
    · exact A.gapItem h3
  have := A.append (A.refl (slice inp a lo)) (A.append (A.refl [if m then LCB else LBR]) (A.append ho (A.append hr (A.refl [close m]))))
  simpa [close] using this

/-- What is written after the items of an inline collection, before the bracket. -/
def tailText {α : Type} (items : Items α) (tr : Bool) (w : Bytes) : Bytes := (if tr && !items.isNil then [COMMA] else []) ++ w

mutual
theorem Lies.keeps (A : Allows inp R) {s : Spot} {a : Nat} {t : Tree Unit} {e : Nat} : Lies inp s a t e → a ≤ e ∧ e ≤ inp.length ∧ R (slice inp a e) t.text
  | .scalar h1 h2 h3 h4 h5 => by
    refine ⟨by have := h1.le; omega, h3, ?_⟩
    rw [leaf_text, h5, slice_append h1.le.1 h2]
    exact A.refl _
  | .open h1 h2 h3 h4 h5 => by
    refine ⟨by have := h1.le; omega, Nat.le_refl _, ?_⟩
    rw [leaf_text, h5, slice_append h1.le.1 h1.le.2]
    exact A.refl _
  | .lines h1 h2 h3 h4 h5 => by
    refine ⟨by have := h1.le; have := h2.le; omega, h4, ?_⟩
    rw [leaf_text]
    rcases h5 with h5 | ⟨h5, h6, h7⟩
    · rw [h5, slice_append h1.le.1 h2.le]
      exact A.refl _
    · rw [h7, slice_append h1.le.1 h1.le.2, ← slice_append (c := inp.length) (by have := h1.le; have := h2.le; omega) h4]
      rcases h6.cut with h8 | ⟨h8, h9, h10⟩
      · rw [h8, List.append_nil]
        exact A.refl _
      · have := A.append (A.refl (slice inp a e)) (A.dup h5 e h9 h10)
        rw [h8]
        simpa using this
  | .empty h1 h2 h3 => ⟨Nat.le_refl _, by have := h1.le; omega, by rw [slice_none (Nat.le_refl _)]; exact A.refl []⟩
  | .dashes h1 h2 h3 => by
    obtain ⟨k1, k2, o, k3, k4⟩ := LiesRows.keeps A h3
    refine ⟨by have := h1.le; omega, k2, ?_⟩
    rw [block_text, k3, ← slice_append h1.le.1 k1]
    exact A.append (A.refl _) k4
  | .keys h1 h2 h3 => by
    obtain ⟨k1, k2, o, k3, k4⟩ := LiesRows.keeps A h3
    refine ⟨by have := h1.le; omega, k2, ?_⟩
    rw [block_text, k3, ← slice_append h1.le.1 k1]
    exact A.append (A.refl _) k4
  | .brackets h1 h2 h3 h4 h5 => by
    obtain ⟨k1, k2, o1, o2, k3, k4, k5⟩ := LiesCells.keeps A (m := false) (List.mem_of_getElem? h2) h4
    rw [collText _ _ _ _ _ h5, k3]
    exact coll_keeps A (m := false) h1 h2 h3 k1 k2 k4 k5
  | .braces h1 h2 h3 h4 h5 => by
    obtain ⟨k1, k2, o1, o2, k3, k4, k5⟩ := LiesCells.keeps A (m := true) (List.mem_of_getElem? h2) h4
    rw [collText _ _ _ _ _ h5, k3]
    exact coll_keeps A (m := true) h1 h2 h3 k1 k2 k4 k5
theorem LiesRows.keeps (A : Allows inp R) {m : Bool} {c : Nat} {first : Bool} {ip : Bytes} {lo : Nat} {items : Items Unit} {e : Nat} :
    LiesRows inp m c first ip lo items e → lo ≤ e ∧ e ≤ inp.length ∧ ∃ o, items.render m .block = itemSpace m ip ++ o ∧ R (slice inp lo e) o
  | .last (key := key) h1 h2 h3 h4 h5 h6 => by
    obtain ⟨k1, k2, k3⟩ := Lies.keeps A h4
    have := h2.lt
    refine ⟨by omega, k2, rowHead m key ++ _, by rw [render_cons, headText_block]; simp [Items.render, sepOf]; rfl, ?_⟩
    rw [h3, ← slice_append (by omega) k1]
    exact A.append (A.refl _) k3
  | .more (key := key) h1 h2 h3 h4 h5 h6 => by
    obtain ⟨k1, k2, k3⟩ := Lies.keeps A h4
    obtain ⟨k4, k5, o, k6, k7⟩ := LiesRows.keeps A h6
    have := h2.lt
    have := h5.le
    refine ⟨by omega, k5, rowHead m key ++ (_ ++ (_ ++ _)), by rw [render_cons, headText_block, k6]; simp [sepOf]; rfl, ?_⟩
    rw [h3, ← slice_append (a := lo) (c := e) (Nat.le_of_lt h2.lt) (by omega), ← slice_append (c := e) k1 (by omega), ← slice_append (c := e) h5.le.1 k4]
    exact A.append (A.refl _) (A.append k3 (A.append (A.gapItem h5) k7))
theorem LiesCells.keeps (A : Allows inp R) {m last : Bool} (hm : (if m then LCB else LBR) ∈ inp) {w : Bytes} {n : Nat} {items : Items Unit} {tr : Bool} {w' : Bytes} {hi : Nat} :
    LiesCells inp m last w n items tr w' hi → n ≤ hi ∧ inp[hi]? = some (close m) ∧
      ∃ o1 o2, inlineText m items tr w' = o1 ++ o2 ∧ (o1 = w ∨ o1 = itemSpace m w) ∧ R (slice inp n hi) o2
  | .none h => ⟨Nat.le_refl _, h, w, [], by simp [inlineText_nil], .inl rfl, by rw [slice_none (Nat.le_refl _)]; exact A.refl _⟩
  | .final (key := key) (v := v) (e := e) h1 h2 h3 h4 h5 h6 => by
    obtain ⟨g1, g2⟩ := A.cellHead (fun h => by rw [if_pos h] at hm; exact hm) h2 h3
    obtain ⟨k1, k2, k3⟩ := Lies.keeps A h4
    refine ⟨by have := h5.le; omega, h6, itemSpace m w, cellHead m key ++ (v.text ++ slice inp e hi), ?_, .inr rfl, ?_⟩
    · rw [inlineText_last, itemHead]; simp
    · rw [← slice_append (a := n) g1 (by have := h5.le; omega), ← slice_append (c := hi) k1 (by have := h5.le; omega)]
      exact A.append g2 (A.append k3 (A.refl _))
  | .cell (key := key) (last := last) (start := start) (e := e) (n' := n') (v := v) (items := items) h1 h2 h3 h4 h5 h6 h7 h8 => by
    obtain ⟨g1, g2⟩ := A.cellHead (fun h => by rw [if_pos h] at hm; exact hm) h2 h3
    obtain ⟨k1, k2, k3⟩ := Lies.keeps A h5
    obtain ⟨k4, k5, o1, o2, k6, k7, k8⟩ := LiesCells.keeps A hm h7
    have hn := h6.le
    refine ⟨by omega, k5, itemSpace m w, cellHead m key ++ (v.text ++ ((if (last && items.isNil) = true then [] else [COMMA]) ++ o1 ++ o2)), ?_, .inr rfl, ?_⟩
    · rw [inlineText_next _ _ _ _ _ _ _ _ h8, itemHead, k6]; simp
    · rw [← slice_append (a := n) g1 (by omega), ← slice_append (c := hi) k1 (by omega), ← slice_append (c := hi) hn (by omega)]
      refine A.append g2 (A.append k3 (A.append (A.next h6 hm k7 ?_) k8))
      split
      · next h => rw [Bool.and_eq_true] at h; exact .inr ⟨h.1, rfl⟩
      · exact .inl rfl
end

/-- The text of an inline collection between the brackets, by the kind of the collection. -/
theorem inlineText_eq (m tr : Bool) (w : Bytes) (items : Items Unit) : inlineText m items tr w = items.render m (.inline tr w) ++ tailText items tr w := by
  rw [inlineText, render_inline (t' := tr) (w' := w), List.append_assoc]; rfl

theorem closeOf_inline (m tr : Bool) (w : Bytes) (items : Items Unit) (h : items.isNil = true → tr = false) :
    closeOf (.inline tr w) (if m then RCB else RBR) = tailText items tr w ++ [close m] := by
  have : tr = (tr && !items.isNil) := by cases hn : items.isNil <;> cases tr <;> simp_all
  simp only [closeOf, tailText]
  rw [← this]
  cases m <;> simp [close]

theorem sep_or (last nil : Bool) : (if (last && nil) = true then ([] : Bytes) else [COMMA]) = [COMMA] ∨ last = true ∧ (if (last && nil) = true then ([] : Bytes) else [COMMA]) = [] := by
  cases last <;> cases nil <;> simp

theorem sep_tail {m last tr : Bool} {w : Bytes} (items : Items Unit) (h : items.isNil = true → tr = !last) (p : Bytes) (key : RStr) (v : Tree Unit) :
    (if (last && items.isNil) = true then [] else [COMMA]) ++ (items.render m (.inline tr w) ++ tailText items tr w) =
      sepOf (.inline tr w) items.isNil ++ items.render m (.inline tr w) ++ tailText (.cons () p key v items) tr w := by
  cases items with
  | nil =>
    have := h rfl
    subst this
    cases last <;> simp [sepOf, Items.render, tailText, Items.isNil]
  | cons => cases last <;> simp [sepOf, tailText, Items.isNil]

theorem coll_part (A : Allows inp R) {m tr : Bool} {w : Bytes} {items : Items Unit} {a lo n hi b d : Nat} {p q o : Bytes} (h1 : FullGap inp a lo)
    (h2 : inp[lo]? = some (if m then LCB else LBR)) (h3 : FullGap inp (lo + 1) n) (h5 : items.isNil = true → tr = false) (hc : inp[hi]? = some (close m)) (k1 : n ≤ b)
    (k2 : d ≤ hi) (k4 : p = itemSpace m (slice inp (lo + 1) n) ++ o) (k5 : R (slice inp n b) o) (k6 : R (slice inp d hi) (q ++ tailText items tr w)) :
    R (slice inp a b) (slice inp a lo ++ openOf (.inline tr w) (if m then LCB else LBR) ++ p) ∧
      R (slice inp d (hi + 1)) (q ++ closeOf (.inline tr w) (if m then RCB else RBR)) := by
  have g1 := h1.le
  have g3 := h3.le
  constructor
  · rw [← slice_append (a := a) (c := b) g1.1 (by omega), ← slice_append (a := lo) (b := lo + 1) (c := b) (by omega) (by omega),
      ← slice_append (a := lo + 1) (c := b) g3.1 (by omega), slice_at h2, k4]
    have := A.append (A.refl (slice inp a lo)) (A.append (A.refl [if m then LCB else LBR]) (A.append (A.gapItem (m := m) h3) k5))
    simpa [openOf] using this
  · rw [closeOf_inline _ _ _ items h5, ← slice_append (a := d) (c := hi + 1) k2 (by omega), slice_at hc, ← List.append_assoc]
    exact A.append k6 (A.refl _)

theorem FullGap.here {a lo : Nat} (h : FullGap inp a lo) : FullGap inp lo lo := ⟨Gap.refl h.le.2, h.2⟩

/-- What is read for a value, without the white space before it, against what is written of it. -/
theorem Lies.own (A : Allows inp R) {s : Spot} {a : Nat} {t : Tree Unit} {e : Nat} (h : Lies inp s a t e) :
    (∃ lo, FullGap inp a lo ∧ t.pre = slice inp a lo ∧ lo ≤ e ∧ R (slice inp lo e) t.render) ∨ t.text = [] ∧ e = a := by
  have key : ∀ {t' : Tree Unit} {lo : Nat}, FullGap inp a lo → t.pre = slice inp a lo → Lies inp s lo t' e → t'.pre = slice inp lo lo → t'.render = t.render →
      (∃ lo, FullGap inp a lo ∧ t.pre = slice inp a lo ∧ lo ≤ e ∧ R (slice inp lo e) t.render) ∨ t.text = [] ∧ e = a := by
    intro t' lo h1 h2 h3 h4 h5
    obtain ⟨k1, _, k3⟩ := h3.keeps A
    refine .inl ⟨lo, h1, h2, k1, ?_⟩
    rw [Tree.text, h4, slice_none (Nat.le_refl _), h5] at k3
    exact k3
  cases h with
  | scalar h1 h2 h3 h4 h5 => exact key h1 rfl (.scalar h1.here h2 h3 h4 h5) rfl rfl
  | «open» h1 h2 h3 h4 h5 => exact key h1 rfl (.open h1.here h2 h3 h4 h5) rfl rfl
  | lines h1 h2 h3 h4 h5 => exact key h1 rfl (.lines h1.here h2 h3 h4 h5) rfl rfl
  | empty h1 h2 h3 => exact .inr ⟨rfl, rfl⟩
  | dashes h1 h2 h3 => exact key h1 rfl (.dashes h1.here h2 h3) rfl rfl
  | keys h1 h2 h3 => exact key h1 rfl (.keys h1.here h2 h3) rfl rfl
  | brackets h1 h2 h3 h4 h5 => exact key h1 rfl (.brackets h1.here h2 h3 h4 h5) rfl rfl
  | braces h1 h2 h3 h4 h5 => exact key h1 rfl (.braces h1.here h2 h3 h4 h5) rfl rfl

end
end Verif
