import Verif.Nest
import Verif.Props.Grow
import Verif.Props.SetRead
/-
A new item at the end of a block collection anywhere in a text, continued: the text of the new item, and where it is.
-/
namespace Verif

/-- No key after a colon before `d` goes on after `d`. -/
def KeysEnd (inp : Bytes) (d : Nat) : Prop := ∀ c k lo q, inp[c]? = some COLON → FullGap inp (c + 1) lo → lo < d → FirstKey inp k lo q → q < d

theorem KeysEnd.stay {inp W : Bytes} {d : Nat} (hd : d ≤ inp.length) (h : KeysEnd inp d) (hW : isWs (W.headD 0) = true) : KeysStay (inp.take d) (inp.drop d) W := by
  intro a k lo q h1 h2 h3 h4
  have hl : (inp.take d).length = d := by rw [List.length_take]; omega
  rw [List.take_append_drop] at h1 h2
  rw [hl] at h3
  have h5 := h a k lo q h1 h2 h3 (by rw [List.take_append_drop] at h4; exact h4)
  exact ⟨k, q, Inner.firstKey h4 (by rw [hl]; exact h5) (.inr hW)⟩

theorem headD_first {a b : Bytes} (h : a.headD 0 ≠ 0) : (a ++ b).headD 0 = a.headD 0 := by
  cases a with
  | nil => exact absurd rfl h
  | cons c a => rfl

theorem Spot.item_inline (c : Nat) (k : Option Bytes) : (Spot.item c k).inline = false := by
  unfold Spot.item
  split <;> rfl

/-- White space and comments, and what is not white space after them. -/
theorem full_mid {H A R : Bytes} (hA : gap A = true) (h1 : isWs (R.headD 0) = false) (h2 : R.headD 0 ≠ HASH) : FullGap (H ++ A ++ R) H.length (H ++ A).length := by
  have hg : (H ++ A ++ R).getD (H ++ A).length 0 = R.headD 0 := by
    rw [List.getD_eq_getElem?_getD, List.getElem?_append_right (Nat.le_refl _), List.headD_eq_head?_getD, Nat.sub_self]
    cases R <;> rfl
  refine ⟨⟨by simp, by simp, .inl ?_⟩, by rw [hg]; exact h1, by rw [hg]; exact h2⟩
  have : slice (H ++ A ++ R) H.length (H ++ A).length = A := by
    rw [slice, List.append_assoc, List.drop_left, List.length_append, Nat.add_sub_cancel_left, List.take_left]
  rw [this]; exact hA

theorem lies_mid {H A T R : Bytes} {s : Spot} {sc : Scalar} (hA : FullGap (H ++ A ++ T ++ R) H.length (H ++ A).length) (hs : s.inline = false) (hw : sc.write = T) (ht : Token false R T sc.value) :
    Lies (H ++ A ++ T ++ R) s H.length (.leaf () A sc) (H ++ A ++ T).length := by
  have h1 : slice (H ++ A ++ T ++ R) (H ++ A).length (H ++ A ++ T).length = T := by
    rw [slice, List.append_assoc (H ++ A), List.drop_left, List.length_append (as := H ++ A), Nat.add_sub_cancel_left, List.take_left]
  have h2 : slice (H ++ A ++ T ++ R) H.length (H ++ A).length = A := by
    rw [slice, List.append_assoc (H ++ A), List.append_assoc H, List.drop_left, List.length_append, Nat.add_sub_cancel_left, List.take_left]
  have h3 := Lies.scalar (s := s) (sc := sc) (inp := H ++ A ++ T ++ R) (hi := (H ++ A ++ T).length) hA (by simp) (by simp) (by rw [hs, List.drop_left, h1]; exact ht) (by rw [h1]; exact hw)
  rw [h2] at h3
  exact h3

theorem gap_newRow (n : Nat) : gap (NL :: List.replicate n SP) = true := by
  show gapGo false (NL :: List.replicate n SP) = true
  rw [gapGo, if_neg (by decide), NL_ws, Bool.true_and]
  exact gap_spaces n

theorem takeWhile_spaces (n : Nat) (r : Bytes) : (List.replicate n SP ++ NL :: r).takeWhile (· != NL) = List.replicate n SP := by
  induction n with
  | zero => simp
  | succ n ih =>
    rw [List.replicate_succ, List.cons_append, List.takeWhile_cons, if_pos (by decide), ih]

theorem column_line (x : Bytes) (n : Nat) (r : Bytes) : columnAt (x ++ (NL :: List.replicate n SP) ++ r) (x ++ (NL :: List.replicate n SP)).length = n := by
  rw [columnAt, List.take_left, List.reverse_append, List.reverse_cons, List.reverse_replicate]
  have : List.replicate n SP ++ [NL] ++ x.reverse = List.replicate n SP ++ NL :: x.reverse := by simp
  rw [this, takeWhile_spaces, List.reverse_replicate, chars_spaces, List.length_replicate]

theorem LiesRows.stops {inp : Bytes} {m : Bool} {c : Nat} {first : Bool} {ip : Bytes} {lo : Nat} {items : Items Unit} {e : Nat} : LiesRows inp m c first ip lo items e →
    ∃ q, FullGap inp e q ∧ ¬ Goes inp m c q
  | .last _ _ _ _ h1 h2 => ⟨_, h1, h2⟩
  | .more _ _ _ _ _ h => h.stops

/-- The text of a new item of a block collection (`m`: a mapping) in column `ind`. -/
def newRow (m : Bool) (ind : Nat) (key : RStr) (sep text : Bytes) : Bytes := NL :: List.replicate ind SP ++ rowHead m key ++ sep ++ text

/-- What a key of a new entry has to be: not empty, without colons and NUL bytes, and not starting with white space, a hash or a dash. -/
def laterKey (k : Bytes) : Bool := !k.isEmpty && !k.contains COLON && !k.contains 0 && !isWs (k.headD 0) && k.headD 0 != HASH && k.headD 0 != DASH

theorem laterKey_iff {k : Bytes} : laterKey k = true ↔ k ≠ [] ∧ COLON ∉ k ∧ 0 ∉ k ∧ isWs (k.headD 0) = false ∧ k.headD 0 ≠ HASH ∧ k.headD 0 ≠ DASH := by
  simp [laterKey, and_assoc]

/-- What a new item of a block collection (`m`: a mapping) has to be, with `rest` after it; `f`: there may be a missing value before it. -/
structure RowOk (m f : Bool) (key : RStr) (sep text rest : Bytes) (a : AnyV) : Prop where
  first : f = true → m = true ∧ keyBlock key.id = true ∧ isWs (sep.headD 0) = true
  key : m = true → key.write = key.id ∧ laterKey key.id = true
  sep : gap sep = true
  token : Token false rest text a
  nul : text.headD 0 ≠ 0

section
variable {m f : Bool} {key : RStr} {sep text rest : Bytes} {a : AnyV} (R : RowOk m f key sep text rest a)
include R

theorem RowOk.head : ∃ b r, rowHead m key = b :: r ∧ isWs b = false ∧ b ≠ HASH ∧ (b = DASH → m = false) := by
  cases m with
  | false => exact ⟨DASH, [], rfl, by decide, by decide, fun _ => rfl⟩
  | true =>
    obtain ⟨h1, h2⟩ := R.key rfl
    obtain ⟨h3, -, -, h4, h5, h6⟩ := laterKey_iff.1 h2
    unfold rowHead
    rw [h1]
    cases hk : key.id with
    | nil => exact absurd hk h3
    | cons b r =>
      rw [hk] at h4 h5 h6
      exact ⟨b, r ++ [COLON], rfl, h4, h5, fun h => absurd h h6⟩

/-- The new item starts with a key. -/
theorem RowOk.firstKey (p : Bytes) (ind : Nat) (hf : f = true) : ∃ k q, FirstKey (p ++ newRow m ind key sep text ++ rest) k (p ++ (NL :: List.replicate ind SP)).length q := by
  obtain ⟨rfl, h1, h2⟩ := R.first hf
  obtain ⟨h3, -⟩ := R.key rfl
  have hk := key_at (g := sep ++ text ++ rest) h1 (.inr (by
    cases sep with
    | nil => exact absurd h2 (by decide)
    | cons b r => exact h2))
  have hk' := mv_head (u := []) (u' := p ++ (NL :: List.replicate ind SP)) (lo := 0) (a := (key.id ++ [COLON]).length) (by simpa using hk)
  have e : p ++ (NL :: List.replicate ind SP) ++ (key.id ++ [COLON] ++ (sep ++ text ++ rest)) = p ++ newRow true ind key sep text ++ rest := by simp [newRow, rowHead, h3]
  rw [← e, show p ++ (NL :: List.replicate ind SP) ++ (key.id ++ [COLON] ++ (sep ++ text ++ rest)) = p ++ (NL :: List.replicate ind SP) ++ (key.id ++ COLON :: (sep ++ (text ++ rest))) by simp]
  obtain ⟨q, -, h⟩ := hk'
  exact ⟨_, q, h⟩

/-- The new item is in the text. -/
theorem RowOk.row (p : Bytes) (ind : Nat) (ip : Bytes) {sc : Scalar} (hv : sc.value = a) (hw : sc.write = text) {q : Nat}
    (hq : FullGap (p ++ newRow m ind key sep text ++ rest) (p ++ newRow m ind key sep text).length q) (hg : ¬ Goes (p ++ newRow m ind key sep text ++ rest) m ind q) :
    LiesRows (p ++ newRow m ind key sep text ++ rest) m ind false ip (p ++ (NL :: List.replicate ind SP)).length (.cons () ip key (.leaf () sep sc) .nil) (p ++ newRow m ind key sep text).length := by
  have hst := R.token.starts R.nul
  have hH := full_mid (H := p ++ (NL :: List.replicate ind SP) ++ rowHead m key) (A := sep) (R := text ++ rest) R.sep
    (by rw [headD_first R.nul]; exact hst.1) (by rw [headD_first R.nul]; exact hst.2.1)
  rw [← List.append_assoc] at hH
  have hS := lies_mid (s := .item ind (keyOf m key)) (sc := sc) hH (Spot.item_inline _ _) hw (by rw [hv]; exact R.token)
  have e2 : p ++ (NL :: List.replicate ind SP) ++ rowHead m key ++ sep ++ text ++ rest = p ++ newRow m ind key sep text ++ rest := by simp [newRow]
  have e3 : p ++ (NL :: List.replicate ind SP) ++ rowHead m key ++ sep ++ text = p ++ newRow m ind key sep text := by simp [newRow]
  rw [e2, e3] at hS
  have e4 : p ++ newRow m ind key sep text ++ rest = p ++ (NL :: List.replicate ind SP) ++ (rowHead m key ++ (sep ++ text ++ rest)) := by simp [newRow]
  refine .last (by rw [e4]; exact column_line _ _ _) ?_ ?_ hS hq hg
  case refine_2 =>
    rw [e4, slice, List.drop_left, List.length_append (bs := rowHead m key), Nat.add_sub_cancel_left, List.take_left]
  rw [e4]
  generalize p ++ (NL :: List.replicate ind SP) = P
  cases m with
  | false =>
    refine ⟨?_, fun h => (by cases h), by simp [rowHead]⟩
    rw [List.getElem?_append_right (Nat.le_refl _), Nat.sub_self]; rfl
  | true =>
    obtain ⟨h1, h2⟩ := R.key rfl
    obtain ⟨h3, h4, h5, -⟩ := laterKey_iff.1 h2
    have := List.length_pos_iff.2 h3
    refine ⟨P.length + key.id.length, by simp [rowHead, h1]; omega, ?_⟩
    rw [if_neg (by decide)]
    have e5 : P ++ (rowHead true key ++ (sep ++ text ++ rest)) = P ++ (key.id ++ (COLON :: (sep ++ text ++ rest))) := by simp [rowHead, h1]
    rw [e5]
    refine ⟨by omega, ?_, ?_, h4, h5⟩
    · rw [sh_get, List.getElem?_append_right (Nat.le_refl _), Nat.sub_self]; rfl
    · have := sh_slice P (key.id ++ (COLON :: (sep ++ text ++ rest))) 0 key.id.length
      rw [Nat.add_zero] at this
      rw [this]; simp [slice]

end

/-- With a new item after its last one, the block collection is in the text. -/
theorem nest_lies {inp : Bytes} {s : Spot} {b0 b d : Nat} {pre : Bytes} {m : Bool} {ind : Nat} {items : Items Unit} {key : RStr} {sep text : Bytes} {sc : Scalar} {f : Bool} (hfo : followed inp = true)
    (hL : Lies inp s b0 (.node () pre m ind .block items) d) (hb : FullGap inp b0 b) (hd : d < inp.length) (hline : ∀ g, FullGap inp d g → NL ∈ slice inp d g ∨ g = inp.length)
    (hkeys : KeysEnd inp d) (htail : items.tailOk ind m f ind) (R : RowOk m f key sep text (inp.drop d) sc.value) (hsc : sc.write = text) :
    Lies (inp.take d ++ newRow m ind key sep text ++ inp.drop d) s b0 (.node () pre m ind .block (items.append (.cons () (NL :: List.replicate ind SP) key (.leaf () sep sc) .nil)))
      (inp.take d ++ newRow m ind key sep text).length := by
  have hl : (inp.take d).length = d := by rw [List.length_take]; omega
  obtain ⟨hs, hind, hrows⟩ : s ≠ .flow ∧ ind = columnAt inp b ∧ LiesRows inp m ind true [] b items d := by
    cases hL with
    | dashes h1 h2 h3 => obtain rfl := h1.unique hb; exact ⟨h2, rfl, h3⟩
    | keys h1 h2 h3 => obtain rfl := h1.unique hb; exact ⟨h2.1, rfl, h3⟩
  have hbd := hrows.ends_lt
  have hcol : ∀ z, columnAt (inp.take d ++ z) b = ind := fun z => by
    rw [hind]
    have := Joint.column (x := inp.take d) (t := inp.drop d) (t' := z) (n := b) (by omega)
    rw [List.take_append_drop] at this
    exact this
  obtain ⟨hb1, r1, e1, w1, w2, w3⟩ := R.head
  have e4 : inp.take d ++ newRow m ind key sep text ++ inp.drop d = inp.take d ++ (NL :: List.replicate ind SP) ++ (rowHead m key ++ (sep ++ text ++ inp.drop d)) := by simp [newRow]
  have U : Under (inp.take d) (inp.drop d) (newRow m ind key sep text ++ inp.drop d) (inp.take d ++ (NL :: List.replicate ind SP)).length ind f := by
    refine ⟨fun h => ?_, rfl, ?_, ?_, hkeys.stay (by omega) (by rfl), fun hf => by rw [← List.append_assoc]; exact R.firstKey _ _ hf⟩
    · have := congrArg List.length h
      rw [List.length_drop] at this
      simp at this
      omega
    · rw [← List.append_assoc, e4]
      exact full_mid (gap_newRow ind) (by rw [e1]; exact w1) (by rw [e1]; exact w2)
    · rw [← List.append_assoc, e4]
      exact column_line _ _ _
  have hm : (inp.take d ++ (newRow m ind key sep text ++ inp.drop d))[(inp.take d ++ (NL :: List.replicate ind SP)).length]? = some DASH → m = false := by
    rw [← List.append_assoc, e4, List.getElem?_append_right (Nat.le_refl _), Nat.sub_self, e1]
    intro h
    exact w3 (Option.some.inj h)
  obtain ⟨q, q1, q2⟩ := hrows.stops
  have h3 := (LiesRows.rest U hm (by rw [List.take_append_drop]; exact hfo) (by rw [List.take_append_drop]; exact hrows) hl.symm htail).2
  have hq := q1.le
  obtain ⟨j, rfl⟩ : ∃ j, q = d + j := ⟨q - d, by omega⟩
  have g1 : FullGap (inp.take d ++ newRow m ind key sep text ++ inp.drop d) (inp.take d ++ newRow m ind key sep text).length ((inp.take d ++ newRow m ind key sep text).length + j) := by
    have := mv_full (u := inp.take d) (u' := inp.take d ++ newRow m ind key sep text) (y := inp.drop d) (a := 0) (b := j) (by rw [List.take_append_drop, hl]; exact q1)
    exact this
  have g2 : ¬ Goes (inp.take d ++ newRow m ind key sep text ++ inp.drop d) m ind ((inp.take d ++ newRow m ind key sep text).length + j) := by
    rcases hline _ q1 with h | h
    · have hn : NL ∈ (inp.drop d).take j := by
        rw [slice, Nat.add_sub_cancel_left] at h; exact h
      rw [mv_goes (u := inp.take d) hn, List.take_append_drop, hl]
      exact q2
    · have : (inp.take d ++ newRow m ind key sep text).length + j = (inp.take d ++ newRow m ind key sep text ++ inp.drop d).length := by
        rw [List.length_append (bs := inp.drop d), List.length_drop]; omega
      rw [this]
      exact no_more _ _ _
  have hsl : slice (inp.take d ++ newRow m ind key sep text ++ inp.drop d) (inp.take d).length (inp.take d ++ (NL :: List.replicate ind SP)).length = NL :: List.replicate ind SP := by
    rw [e4, slice, List.append_assoc (inp.take d), List.drop_left, List.length_append, Nat.add_sub_cancel_left, List.take_left]
  have g3 := R.row (inp.take d) ind (slice (inp.take d ++ newRow m ind key sep text ++ inp.drop d) (inp.take d).length (inp.take d ++ (NL :: List.replicate ind SP)).length) rfl hsc g1 g2
  rw [List.append_assoc] at g3
  have g4 := h3 _ _ g3
  rw [← List.append_assoc, hsl] at g4
  have hg : FullGap (inp.take d ++ newRow m ind key sep text ++ inp.drop d) b0 b := by
    rw [List.append_assoc]
    exact Inner.full (y := inp.drop d) (by rw [List.take_append_drop]; exact hb) (by omega)
  have hsl : slice (inp.take d ++ newRow m ind key sep text ++ inp.drop d) b0 b = slice inp b0 b := by
    rw [List.append_assoc]
    have := Joint.slice (x := inp.take d) (t := inp.drop d) (t' := newRow m ind key sep text ++ inp.drop d) (a := b0) (b := b) (by omega)
    rw [List.take_append_drop] at this
    exact this
  have hcol := hcol (newRow m ind key sep text ++ inp.drop d)
  rw [← List.append_assoc] at hcol
  refine .rows hg ((hL.pre hb hbd).trans hsl.symm) hcol hs ?_ g4
  rintro rfl
  cases hL with
  | keys h1 h2 h3 => exact h2

end Verif
