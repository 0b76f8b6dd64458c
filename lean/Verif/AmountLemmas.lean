import Verif.Amount
import Verif.ExactLead
import Verif.PlaceRules
/-
How much the parts of a text can hold.
-/
namespace Verif

/-- The number of values of items. -/
def valuesOf (l : List (Option Bytes × Content)) : Nat := (l.map fun e => e.2.values).sum
/-- The number of bytes of items. -/
def bytesOf (l : List (Option Bytes × Content)) : Nat := (l.map fun e => (e.1.getD []).length + e.2.bytes).sum

theorem valuesOf_cons (e : Option Bytes × Content) (l : List (Option Bytes × Content)) : valuesOf (e :: l) = e.2.values + valuesOf l := by
  simp [valuesOf]
theorem bytesOf_cons (e : Option Bytes × Content) (l : List (Option Bytes × Content)) :
    bytesOf (e :: l) = (e.1.getD []).length + e.2.bytes + bytesOf l := by
  simp [bytesOf]

theorem elems_values : ∀ es : Elems, valuesOf (es.list.map fun v => (none, v)) = es.values
  | .nil => rfl
  | .cons v rest => by rw [Elems.list, List.map_cons, valuesOf_cons, elems_values rest]; rfl
theorem elems_bytes : ∀ es : Elems, bytesOf (es.list.map fun v => (none, v)) = es.bytes
  | .nil => rfl
  | .cons v rest => by rw [Elems.list, List.map_cons, bytesOf_cons, elems_bytes rest]; simp [Elems.bytes]
theorem entries_values : ∀ es : Entries, valuesOf (es.list.map fun e => (some e.1, e.2)) = es.values
  | .nil => rfl
  | .cons k v rest => by rw [Entries.list, List.map_cons, valuesOf_cons, entries_values rest]; rfl
theorem entries_bytes : ∀ es : Entries, bytesOf (es.list.map fun e => (some e.1, e.2)) = es.bytes
  | .nil => rfl
  | .cons k v rest => by rw [Entries.list, List.map_cons, bytesOf_cons, entries_bytes rest]; rfl

theorem slice_len (inp : Bytes) (a b : Nat) : (slice inp a b).length ≤ b - a := by
  unfold slice; rw [List.length_take]; omega

theorem utf8_len (c : Char) : (String.utf8EncodeChar c).length ≤ 4 := by
  rw [String.length_utf8EncodeChar]
  exact Char.utf8Size_le_four c

theorem char_len (ds : Bytes) : (((charOf ds).map String.utf8EncodeChar).getD []).length ≤ 4 := by
  cases charOf ds with
  | none => simp
  | some c => exact utf8_len c

theorem Piece.reads_len (p : Piece) : p.reads.length ≤ p.text.length := by
  unfold Piece.reads
  split
  · next h => subst h; decide
  · cases p with
    | byte b => exact Nat.le_refl _
    | esc c =>
      simp only [Piece.value, Piece.text, List.length_cons, List.length_nil]
      cases letters.lookup c <;> simp
    | hex a b => exact char_len _
    | uni a b c d => exact Nat.le_trans (char_len _) (by simp [Piece.text])

theorem pieces_len : ∀ ps : List Piece, (ps.flatMap Piece.reads).length ≤ (ps.flatMap Piece.text).length
  | [] => Nat.le_refl _
  | p :: ps => by
    have h1 := p.reads_len
    have h2 := pieces_len ps
    simp only [List.flatMap_cons, List.length_append]
    omega

theorem InQuotes.len {t s : Bytes} (h : InQuotes t s) : s.length ≤ t.length := by
  cases h with
  | single =>
    have : ∀ s : Bytes, s.length ≤ (s.flatMap fun b => if b = SQ then [SQ, SQ] else [b]).length := by
      intro s
      induction s with
      | nil => exact Nat.le_refl _
      | cons b s ih =>
        simp only [List.flatMap_cons, List.length_append, List.length_cons]
        split <;> simp only [List.length_cons, List.length_nil] <;> omega
    have := this s
    unfold quoteSingle
    simp only [List.length_append, List.length_cons]
    omega
  | double =>
    have := pieces_len ‹_›
    simp only [List.length_append, List.length_cons]
    omega

theorem Token.len {fl : Bool} {r s : Bytes} {a : AnyV} (h : Token fl r s a) : a.size ≤ s.length := by
  cases h with
  | number => exact Nat.le_refl _
  | plain =>
    unfold plainValue
    repeat' split
    all_goals simp [AnyV.size]
  | quoted h => exact h.len

theorem Trimmed.len {s t : Bytes} (h : Trimmed s t) : t.length ≤ s.length := by
  obtain ⟨l, r, -, h, -⟩ := h
  rw [h]
  simp only [List.length_append]
  omega

theorem breaksIn_le (inp : Bytes) (a b : Nat) : breaksIn inp a b ≤ b - a :=
  Nat.le_trans List.count_le_length (slice_len _ _ _)

/-- There is a line break before more lines. -/
theorem LineAt.more {inp : Bytes} {a e q : Nat} (h : LineAt inp a e) (hf : FullGap inp e q) (hq : q < inp.length) : e < q := by
  have := hf.le.1
  rcases Nat.lt_or_ge e q with h' | h'
  · exact h'
  · obtain rfl : e = q := by omega
    rcases h.2.2 with h | h
    · omega
    · have := hf.2.1
      rw [List.getD_eq_getElem?_getD, h] at this
      exact absurd this (by decide)

theorem between_len {fo : Bool} {n : Nat} : (between fo n).length ≤ max 1 n := by
  unfold between
  split <;> simp <;> omega

theorem BlockRows.start_lt {inp : Bytes} {fo : Bool} {c p : Nat} {v : Bytes} {hi n : Nat} (h : BlockRows inp fo c p v hi n) : p < inp.length := by
  cases h <;> assumption

theorem BlockRows.len {inp : Bytes} {fo : Bool} {c p : Nat} {v : Bytes} {hi n : Nat} (h : BlockRows inp fo c p v hi n) :
    p ≤ hi ∧ hi ≤ inp.length ∧ v.length + n + 2 * p ≤ 2 * wsEnd inp hi + 1 := by
  induction h with
  | @last p e q t h1 h2 h3 h4 h5 =>
    have k1 := h4.le
    have k2 := Nat.le_trans h3.len (slice_len _ _ _)
    have k3 := breaksIn_le inp e q
    have k4 := h2.1
    rw [h4.eq]
    omega
  | @final p e t h1 h2 h3 h4 h5 =>
    have k1 := h4.le
    have k2 := Nat.le_trans h3.len (slice_len _ _ _)
    have k3 := breaksIn_le inp e inp.length
    have k4 := h2.1
    have k5 := between_len (fo := fo) (n := breaksIn inp e inp.length)
    rw [h4.eq, List.length_append]
    omega
  | @more p e q hi n t v h1 h2 h3 h4 h5 h6 ih =>
    have k1 := h4.le
    have k2 := Nat.le_trans h3.len (slice_len _ _ _)
    have k3 := breaksIn_le inp e q
    have k4 := h2.1
    have k5 := between_len (fo := fo) (n := breaksIn inp e q)
    have k6 := h2.more h4 h6.start_lt
    simp only [List.length_append]
    omega

theorem BlockBody.len {inp : Bytes} {fo : Bool} {h : Nat} {v : Bytes} {hi n : Nat} (hb : BlockBody inp fo h v hi n) :
    h ≤ hi ∧ hi ≤ inp.length ∧ v.length + n + 2 * h ≤ 2 * wsEnd inp hi + 1 := by
  cases hb with
  | below h1 h2 h3 =>
    have k1 := h1.le
    have k2 := h3.len
    omega
  | nothing h1 h2 =>
    have k1 := h1.le
    have k3 := breaksIn_le inp h inp.length
    rw [h1.eq, List.length_nil]
    omega
  | @beside q e t h1 h2 h3 h4 h5 =>
    have k1 := h5.le
    have k2 := Nat.le_trans h4.len (slice_len _ _ _)
    have k3 := breaksIn_le inp hi inp.length
    have k4 := h3.1
    rw [h5.eq]
    omega
  | @both q e p hi n t v h1 h2 h3 h4 h5 h6 =>
    have k1 := h5.le
    have k2 := Nat.le_trans h4.len (slice_len _ _ _)
    have k4 := h3.1
    have k5 := between_len (fo := fo) (n := 1)
    have k6 := h3.more h5 h6.start_lt
    have k7 := h6.len
    simp only [List.length_append]
    omega

theorem BlockAt.len {inp : Bytes} {lo : Nat} {v : Bytes} {hi : Nat} (h : BlockAt inp lo v hi) :
    lo < hi ∧ hi ≤ inp.length ∧ v.length + 2 * lo ≤ 2 * wsEnd inp hi := by
  obtain ⟨fo, ch, h, n, w, h1, h2, -, -, h3, rfl⟩ := h
  have k1 := h3.len
  have : (endBreaks ch n).length ≤ n := by unfold endBreaks; split <;> simp
  rw [List.length_append]
  omega

theorem FirstKey.len {inp k : Bytes} {lo q : Nat} (h : FirstKey inp k lo q) : lo ≤ q ∧ q < inp.length ∧ k.length ≤ q - lo := by
  obtain ⟨h1, h2, h3⟩ := h
  refine ⟨h1, ?_, ?_⟩
  · exact (List.getElem?_eq_some_iff.1 h2).1
  · rcases h3 with h3 | ⟨rfl, _⟩
    · exact Nat.le_trans h3.len (slice_len _ _ _)
    · exact slice_len _ _ _

theorem Head.len {inp : Bytes} {first : Bool} {k : Option Bytes} {lo a : Nat} (h : Head inp first k lo a) :
    lo < a ∧ a ≤ inp.length ∧ (k.getD []).length ≤ a - lo := by
  cases k with
  | none =>
    obtain ⟨h1, -, rfl⟩ := h
    have := (List.getElem?_eq_some_iff.1 h1).1
    simp only [Option.getD_none, List.length_nil]
    omega
  | some k =>
    obtain ⟨q, rfl, h⟩ := h
    simp only [Option.getD_some]
    split at h
    · have := h.len
      omega
    · obtain ⟨h1, h2, rfl, -⟩ := h
      have := (List.getElem?_eq_some_iff.1 h2).1
      have := slice_len inp lo q
      omega

theorem CellHead.len {inp : Bytes} {k : Option Bytes} {lo a : Nat} (h : CellHead inp k lo a) (hl : lo ≤ inp.length) :
    lo ≤ a ∧ a ≤ inp.length ∧ (k.getD []).length ≤ a - lo := by
  cases k with
  | none =>
    obtain rfl := h
    simp only [Option.getD_none, List.length_nil]
    omega
  | some k =>
    obtain ⟨q, h1, h2, rfl, rfl, -⟩ := h
    have : q < inp.length := by
      rcases h2 with h2 | h2 <;> exact (List.getElem?_eq_some_iff.1 h2).1
    have := slice_len inp lo q
    simp only [Option.getD_some]
    omega

/-- The next item is after the white space; it is after a comma unless it is the last one. -/
theorem NextCell.len {inp : Bytes} {m blk : Bool} {e : Nat} {last : Bool} {start n : Nat} (h : NextCell inp m blk e last start n) (he : e ≤ inp.length) :
    wsEnd inp e ≤ n ∧ n ≤ inp.length ∧ e + (if last then 0 else 1) ≤ n := by
  obtain ⟨c, h1, h2⟩ := h
  have hc : e ≤ c := by
    split at h1
    · exact h1.le.1
    · omega
  rcases h2 with ⟨rfl, h2, h3⟩ | ⟨rfl, h2, h3, h4⟩
  · have hw : wsEnd inp e = c := by
      split at h1
      · exact h1.eq
      · subst h1
        exact FullGap.eq ⟨Gap.refl he, by rw [List.getD_eq_getElem?_getD, h2]; decide, by rw [List.getD_eq_getElem?_getD, h2]; decide⟩
    have hcl := (List.getElem?_eq_some_iff.1 h2).1
    simp only [Bool.false_eq_true, if_false]
    split at h3
    · omega
    · have := h3.2.le
      omega
  · have := h4.le
    rw [h4.eq]
    simp only [if_true]
    omega

mutual
theorem Sits.amount {inp : Bytes} : ∀ {s : Spot} {x : Content} {lo hi : Nat}, Sits inp contentView s x lo hi → lo ≤ inp.length →
    lo ≤ hi ∧ hi ≤ inp.length ∧ x.values + lo ≤ hi + 1 ∧ x.bytes + 2 * lo ≤ 2 * wsEnd inp hi
  | _, _, lo, hi, .scalar h1 h2 h3 h4, _ => by
    obtain rfl := h1
    have k1 := Nat.le_trans h4.len (slice_len _ _ _)
    have k2 := (FullGap.ws h3).le
    simp only [Content.values, Content.bytes]
    omega
  | _, _, lo, hi, .lines h1 h2, _ => by
    obtain rfl := h1
    have k1 := h2.len
    simp only [Content.values, Content.bytes, AnyV.size]
    omega
  | _, _, lo, _, .open (ps := ps) h1 h2 h3 h4, _ => by
    obtain rfl := h1
    have k1 := pieces_len ps
    have k2 := congrArg List.length h4
    have k3 := (FullGap.ws (Nat.le_refl inp.length)).le
    simp only [List.length_drop, List.length_cons] at k2
    simp only [Content.values, Content.bytes, AnyV.size]
    omega
  | _, _, lo, _, .empty h1 h2 h3, hl => by
    obtain rfl := h1
    have k3 := (FullGap.ws hl).le
    simp only [Content.values, Content.bytes, AnyV.size]
    omega
  | _, _, lo, hi, .dashes h1 h2 h3, hl => by
    have k := h3.amount hl
    obtain ⟨es, rfl, rfl⟩ := h1
    rw [elems_values, elems_bytes] at k
    simp only [Content.values, Content.bytes]
    omega
  | _, _, lo, hi, .keys h1 h2 h3, hl => by
    have k := h3.amount hl
    obtain ⟨es, rfl, rfl⟩ := h1
    rw [entries_values, entries_bytes] at k
    simp only [Content.values, Content.bytes]
    omega
  | _, _, lo, _, .brackets (n := n) (hi := hi) h1 h2 h3 h4, hl => by
    have k1 := h3.le
    have k := h4.amount k1.2
    obtain ⟨es, rfl, rfl⟩ := h1
    have k2 := (FullGap.ws (inp := inp) (n := hi + 1) k.2.1).le
    rw [elems_values, elems_bytes] at k
    simp only [Content.values, Content.bytes]
    simp only [Bool.false_eq_true, if_false] at k
    omega
  | _, _, lo, _, .braces (n := n) (hi := hi) h1 h2 h3 h4, hl => by
    have k1 := h3.le
    have k := h4.amount k1.2
    obtain ⟨es, rfl, rfl⟩ := h1
    have k2 := (FullGap.ws (inp := inp) (n := hi + 1) k.2.1).le
    rw [entries_values, entries_bytes] at k
    simp only [Content.values, Content.bytes]
    simp only [Bool.false_eq_true, if_false] at k
    omega
theorem Rows.amount {inp : Bytes} : ∀ {c : Nat} {first : Bool} {l : List (Option Bytes × Content)} {lo hi : Nat}, Rows inp contentView c first l lo hi →
    lo ≤ inp.length → lo ≤ hi ∧ hi ≤ inp.length ∧ valuesOf l + lo ≤ hi ∧ bytesOf l + 2 * lo ≤ 2 * wsEnd inp hi
  | _, _, _, lo, hi, .last (v := v) h1 h2 h3 h4 h5 h6, _ => by
    have k1 := h2.len
    have k2 := h3.le
    have k3 := h4.amount k2.2
    rw [valuesOf_cons, bytesOf_cons]
    simp only [valuesOf, bytesOf, List.map_nil, List.sum_nil]
    omega
  | _, _, _, lo, hi, .more (v := v) (e := e) h1 h2 h3 h4 h5 h6, _ => by
    have k1 := h2.len
    have k2 := h3.le
    have k3 := h4.amount k2.2
    have k4 := h5.le
    have k5 := h6.amount k4.2
    rw [h5.eq] at k3
    rw [valuesOf_cons, bytesOf_cons]
    simp only
    omega
theorem Cells.amount {inp : Bytes} : ∀ {m last : Bool} {l : List (Option Bytes × Content)} {n hi : Nat}, Cells inp contentView m last l n hi →
    n ≤ inp.length → n ≤ hi ∧ hi + 1 ≤ inp.length ∧ valuesOf l + n ≤ hi + (if last then 1 else 2) ∧ bytesOf l + 2 * n ≤ 2 * hi
  | _, last, _, n, _, .none h1, hl => by
    have k1 := (List.getElem?_eq_some_iff.1 h1).1
    simp only [valuesOf, bytesOf, List.map_nil, List.sum_nil]
    cases last <;> simp <;> omega
  | _, _, _, n, hi, .final h1 h2 h3 h4 h5 h6, hl => by
    have k0 := (List.getElem?_eq_some_iff.1 h6).1
    have k1 := h2.len hl
    have k2 := h3.le
    have k3 := h4.amount k2.2
    have k4 := h5.le
    rw [h5.eq] at k3
    rw [valuesOf_cons, bytesOf_cons]
    simp only [valuesOf, bytesOf, List.map_nil, List.sum_nil, if_true]
    omega
  | _, _, _, n, hi, .cell (last := last) h1 h2 h3 h4 h5 h6, hl => by
    have k1 := h2.len hl
    have k2 := h3.le
    have k3 := h4.amount k2.2
    have k4 := h5.len k3.2.1
    have k5 := h6.amount k4.2.1
    rw [valuesOf_cons, bytesOf_cons]
    cases last <;> simp only [Bool.false_eq_true, if_false, if_true] at k4 k5 ⊢ <;> omega
end

/-- A text of `n` bytes has at most `n + 1` values, and keys, numbers and strings of at most `2 n` bytes. -/
theorem Accepts.amount {inp : Bytes} {c : Content} (h : Accepts inp c) : c.values ≤ inp.length + 1 ∧ c.bytes ≤ 2 * inp.length := by
  obtain ⟨lo, hi, h1, -, h3, h4⟩ := h
  have := h3.amount h1
  rw [h4.eq] at this
  omega

end Verif
