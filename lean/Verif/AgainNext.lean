import Verif.Again
import Verif.Sound
/-
Reading again what was written for a block collection: what follows a value.
-/
namespace Verif

/-! ### Lines -/

theorem lastLine_keep {a b : Bytes} (h : NL ∉ b) : lastLine (a ++ b) = lastLine a ++ b := by
  unfold lastLine
  rw [List.reverse_append, List.takeWhile_append_of_pos]
  · simp
  · intro x hx
    exact bne_iff_ne.2 fun hc => h (by rw [← hc]; exact List.mem_reverse.1 hx)

theorem lastLine_free (b : Bytes) : NL ∉ lastLine b := by
  unfold lastLine
  intro hc
  have := List.all_eq_true.1 (List.all_takeWhile (p := (· != NL)) (l := b.reverse)) NL (List.mem_reverse.1 hc)
  revert this; decide

theorem lastLine_next {a b : Bytes} (h : NL ∈ b) : lastLine (a ++ b) = lastLine b := by
  rcases lastLine_split b with hs | ⟨c, hs⟩
  · exact absurd h (by rw [← hs]; exact lastLine_free b)
  · rw [hs, ← List.append_assoc, lastLine_nl fun x hx hc => lastLine_free b (by rw [← hc]; exact hx), ← hs]

theorem lastLine_cons {b : UInt8} {s : Bytes} : lastLine (b :: s) = if NL ∈ s ∨ b = NL then lastLine s else b :: s := by
  by_cases h : NL ∈ s
  · rw [if_pos (.inl h)]
    exact lastLine_next (a := [b]) h
  · have hs := lastLine_keep (a := []) h
    rw [List.nil_append] at hs
    have := lastLine_keep (a := [b]) h
    rw [List.singleton_append] at this
    rw [this]
    by_cases hb : b = NL
    · rw [if_pos (.inr hb), hs, hb]; rfl
    · rw [if_neg (by simp [h, hb])]
      have : (b != NL) = true := bne_iff_ne.2 hb
      simp [lastLine, List.takeWhile, this]

/-- The replacement characters do not change the lines of a gap. -/
theorem gapGo_lines : ∀ {c : Bool} {s : Bytes}, gapGo c s = true →
    (lossy s).count NL = s.count NL ∧ lastLine (lossy s) = lastLine s ∧ (c = true → NL ∈ s) := by
  intro c s
  induction hn : s.length using Nat.strongRecOn generalizing s c with
  | ind n ih =>
    intro h
    cases s with
    | nil => cases c with
      | false => exact ⟨rfl, rfl, fun h => by cases h⟩
      | true => cases h
    | cons b r =>
      by_cases hb : b < 0x80
      · rw [lossy_ascii hb]
        have hl : r.length < n := by rw [← hn]; simp
        have go : ∀ {c'}, gapGo c' r = true → (c = true → b = NL ∨ c' = true) → (b :: lossy r).count NL = (b :: r).count NL ∧
            lastLine (b :: lossy r) = lastLine (b :: r) ∧ (c = true → NL ∈ b :: r) := by
          intro c' h' hc
          obtain ⟨i1, i2, i3⟩ := ih _ hl rfl h'
          have hm : NL ∈ lossy r ↔ NL ∈ r := by rw [← List.count_pos_iff, ← List.count_pos_iff, i1]
          refine ⟨by rw [List.count_cons, List.count_cons, i1], ?_, fun h => ?_⟩
          · rw [lastLine_cons, lastLine_cons]
            by_cases hd : NL ∈ r ∨ b = NL
            · rw [if_pos hd, if_pos (hd.imp hm.2 id), i2]
            · rw [if_neg hd, if_neg (fun h => hd (h.imp hm.1 id))]
              have e1 := lastLine_keep (a := []) (fun h => hd (.inl h))
              have e2 := lastLine_keep (a := []) (fun h => hd (.inl (hm.1 h)))
              simp only [List.nil_append] at e1 e2
              have e0 : lastLine [] = [] := rfl
              rw [e0, List.nil_append] at e1 e2
              have e3 : lossy r = r := by rw [← e2, i2, e1]
              rw [e3]
          · rcases hc h with h | h
            · exact List.mem_cons.2 (.inl h.symm)
            · exact List.mem_cons.2 (.inr (i3 h))
        cases c with
        | true =>
          rw [gapGo] at h
          refine go h fun _ => ?_
          by_cases hb : b = NL
          · exact .inl hb
          · exact .inr (bne_iff_ne.2 hb)
        | false =>
          rw [gapGo] at h
          by_cases hh : (b == HASH) = true
          · rw [if_pos hh] at h; exact go h fun h => by cases h
          · rw [if_neg hh, Bool.and_eq_true] at h
            exact go h.2 fun h => by cases h
      · have hc : c = true := by
          cases c with
          | true => rfl
          | false =>
            exfalso
            rw [gapGo] at h
            by_cases hh : b = HASH
            · exact hb (by rw [hh]; decide)
            · rw [if_neg (by simpa using hh), Bool.and_eq_true] at h
              rcases (isWs_iff b).1 h.1 with h | h
              · exact hb (by rw [h]; decide)
              · exact hb (otherWs_ascii h)
        subst hc
        have hs := decodeHead_step b r
        have hbn : NL ≠ b := fun h => hb (by rw [← h]; decide)
        have hcn : NL ∉ r.take ((decodeHead (b :: r)).2 - 1) := fun hm => isCont_ge (hs.cont NL hm) (by decide)
        have hcn' : NL ∉ b :: r.take ((decodeHead (b :: r)).2 - 1) := by simp [hbn, hcn]
        have e : b :: r = (b :: r.take ((decodeHead (b :: r)).2 - 1)) ++ r.drop ((decodeHead (b :: r)).2 - 1) := by
          rw [List.cons_append, List.take_append_drop]
        have h' : gapGo true (r.drop ((decodeHead (b :: r)).2 - 1)) = true := by
          rw [e, gapGo_chunk hcn'] at h; exact h
        obtain ⟨i1, i2, i3⟩ := ih _ (by rw [← hn]; simp; omega) rfl h'
        have el : lossy (b :: r) = (if (decodeHead (b :: r)).1 then b :: r.take ((decodeHead (b :: r)).2 - 1) else replacement) ++
            lossy (r.drop ((decodeHead (b :: r)).2 - 1)) := by
          simp only [lossy]
          rw [chars_cons, List.flatten_cons]
        have hx : NL ∉ (if (decodeHead (b :: r)).1 then b :: r.take ((decodeHead (b :: r)).2 - 1) else replacement) := by
          split
          · exact hcn'
          · decide
        have i4 := i3 rfl
        have i5 : NL ∈ lossy (r.drop ((decodeHead (b :: r)).2 - 1)) := by rw [← List.count_pos_iff, i1, List.count_pos_iff]; exact i4
        rw [el]
        refine ⟨?_, ?_, fun _ => by rw [e]; exact List.mem_append_right _ i4⟩
        · rw [List.count_append, List.count_eq_zero.2 hx, i1]
          conv => rhs; rw [e]
          rw [List.count_append, List.count_eq_zero.2 hcn']
        · rw [lastLine_next i5, i2]
          conv => rhs; rw [e]
          rw [lastLine_next i4]

theorem gap_head {b : UInt8} {r : Bytes} (h : gap (b :: r) = true) : b < 0x80 ∧ (b = HASH ∨ isWs b = true ∧ gap r = true) := by
  rw [gap, gapGo] at h
  by_cases hh : b = HASH
  · exact ⟨by rw [hh]; decide, .inl hh⟩
  · rw [if_neg (by simpa using hh), Bool.and_eq_true] at h
    refine ⟨?_, .inr h⟩
    rcases (isWs_iff b).1 h.1 with h | h
    · rw [h]; decide
    · exact otherWs_ascii h

/-- A gap, and how it is written. -/
structure GapLike (w w' : Bytes) : Prop where
  gap : gap w' = true
  count : w'.count NL = w.count NL
  last : lastLine w' = lastLine w
  head : ∃ b r r', w = b :: r ∧ w' = b :: r' ∧ (b = HASH ∨ isWs b = true)
  ends : ∀ r r', lineEnds (w' ++ r') = lineEnds (w ++ r)

theorem lineEnds_lossy : ∀ {w : Bytes}, gap w = true → NL ∈ w → ∀ r r', lineEnds (lossy w ++ r') = lineEnds (w ++ r)
  | [], _, h, _, _ => by cases h
  | b :: s, hg, hn, r, r' => by
    obtain ⟨h1, h2⟩ := gap_head hg
    rw [lossy_ascii h1]
    by_cases ho : isOtherWs b = true
    · have hne : b ≠ NL := by rintro rfl; revert ho; decide
      have hh : b ≠ HASH := by rintro rfl; revert ho; decide
      have ih := lineEnds_lossy (w := s) (h2.resolve_left hh).2 ((List.mem_cons.1 hn).resolve_left fun h => hne h.symm) r r'
      unfold lineEnds at ih ⊢
      rw [List.cons_append, List.cons_append, List.dropWhile_cons_of_pos ho, List.dropWhile_cons_of_pos ho]
      exact ih
    · unfold lineEnds
      rw [List.cons_append, List.cons_append, List.dropWhile_cons_of_neg ho, List.dropWhile_cons_of_neg ho]
      rfl

theorem lineEnds_tail : ∀ {w : Bytes}, NL ∈ w → ∀ r r', lineEnds (w ++ r') = lineEnds (w ++ r)
  | b :: s, hn, r, r' => by
    unfold lineEnds
    by_cases ho : isOtherWs b = true
    · have hne : b ≠ NL := by rintro rfl; revert ho; decide
      have ih := lineEnds_tail (w := s) ((List.mem_cons.1 hn).resolve_left fun h => hne h.symm) r r'
      unfold lineEnds at ih
      rw [List.cons_append, List.cons_append, List.dropWhile_cons_of_pos ho, List.dropWhile_cons_of_pos ho]
      exact ih
    · rw [List.cons_append, List.cons_append, List.dropWhile_cons_of_neg ho, List.dropWhile_cons_of_neg ho]
      rfl

theorem GapLike.of {w w' : Bytes} (hg : Verif.gap w = true) (hn : NL ∈ w) (h : w' = w ∨ w' = lossy w) : GapLike w w' := by
  cases w with
  | nil => cases hn
  | cons b r =>
    obtain ⟨h1, h2⟩ := gap_head hg
    have h3 : b = HASH ∨ isWs b = true := h2.imp id And.left
    rcases h with rfl | rfl
    · exact ⟨hg, rfl, rfl, ⟨b, r, r, rfl, rfl, h3⟩, lineEnds_tail hn⟩
    · obtain ⟨g1, g2, -⟩ := gapGo_lines hg
      exact ⟨gap_lossy hg, g1, g2, ⟨b, r, lossy r, rfl, lossy_ascii h1 r, h3⟩, lineEnds_lossy hg hn⟩

theorem GapLike.nl {w w' : Bytes} (h : GapLike w w') (hn : NL ∈ w) : NL ∈ w' := by
  rw [← List.count_pos_iff, h.count, List.count_pos_iff]; exact hn

/-! ### What follows a value -/

/-- The rest of the text is the same, or there is a line break in the gap. -/
inductive Next (inp T : Bytes) (h : Bool) (w : Bytes) (q : Nat) (w' R' : Bytes) (Q : Nat) : Prop
  | done : q = inp.length → w' = w → R' = [] → Next inp T h w q w' R' Q
  | more : q < inp.length → gap w = true → NL ∈ w → w' = w ∨ w' = lossy w → hd R' = peekAt inp q →
    (h = true → ∀ k z, FirstKey inp k q z → ∃ k' z', FirstKey T k' Q z') → Next inp T h w q w' R' Q

section
variable {inp T : Bytes} {h : Bool} {w : Bytes} {e q : Nat} {w' R' : Bytes} {E Q : Nat}

theorem Next.peek (hx : Next inp T h w q w' R' Q) (hw : w = slice inp e q) (he : e ≤ q) : hd (w' ++ R') = peekAt inp e := by
  cases hx with
  | done h1 h2 h3 =>
    rw [h2, h3, List.append_nil, hw, h1]
    unfold peekAt slice
    rw [List.take_of_length_le (by simp)]
  | more h1 h2 h3 h4 _ _ =>
    obtain ⟨b, r, r', e1, e2, -⟩ := (GapLike.of h2 h3 h4).head
    rw [e2]
    have hlt : e < q := by
      refine Nat.lt_of_le_of_ne he fun h => ?_
      rw [h, slice_self] at hw; rw [hw] at h3; cases h3
    rw [← peek_slice hlt, ← hw, e1]; rfl

theorem Next.full (hx : Next inp T h w q w' R' Q) (hw : w = slice inp e q) (hg : FullGap inp e q) (hd : T.drop E = w' ++ R') (hE : E ≤ T.length) :
    FullGap T E (E + w'.length) := by
  cases hx with
  | done h1 h2 h3 =>
    rw [h3, List.append_nil] at hd
    have hl : E + w'.length = T.length := by
      have := congrArg List.length hd
      rw [List.length_drop] at this; omega
    rw [hl]
    refine ⟨⟨hE, Nat.le_refl _, ?_⟩, ?_, ?_⟩
    · have hs : slice T E T.length = w := by
        unfold slice
        rw [List.take_of_length_le (by simp), hd, h2]
      rw [hs, hw]
      exact hg.1.2.2.imp id fun h => ⟨rfl, h.2⟩
    · rw [getD_peek, peekAt_ge (Nat.le_refl _)]; decide
    · rw [getD_peek, peekAt_ge (Nat.le_refl _)]; decide
  | more h1 h2 h3 h4 h5 _ =>
    refine fullGap_at hd hE (GapLike.of h2 h3 h4).gap ?_
    have := hg.2
    rw [getD_peek, ← h5] at this
    exact this

theorem Next.breaks (hx : Next inp T h w q w' R' Q) : w'.count NL = w.count NL := by
  cases hx with
  | done _ h2 _ => rw [h2]
  | more h1 h2 h3 h4 => exact (GapLike.of h2 h3 h4).count

theorem Next.last (hx : Next inp T h w q w' R' Q) : lastLine w' = lastLine w := by
  cases hx with
  | done _ h2 _ => rw [h2]
  | more h1 h2 h3 h4 => exact (GapLike.of h2 h3 h4).last

theorem take_split {T : Bytes} {p : Nat} {s r : Bytes} (h : T.drop p = s ++ r) : T.take (p + s.length) = T.take p ++ s := by
  have h1 := slice_of h
  unfold slice at h1
  rw [List.take_add, ← h1]
  simp

theorem take_slice {inp : Bytes} {a b : Nat} (h : a ≤ b) : inp.take b = inp.take a ++ slice inp a b := by
  obtain ⟨k, rfl⟩ := Nat.le.dest h
  unfold slice
  rw [List.take_add, Nat.add_sub_cancel_left]

/-- The next line starts in the same way. -/
theorem Next.line (hx : Next inp T h w q w' R' Q) (hw : w = slice inp e q) (he : e ≤ q) (hd : T.drop E = w' ++ R') (hq : q < inp.length) :
    lastLine (T.take (E + w'.length)) = lastLine (inp.take q) := by
  cases hx with
  | done h1 => omega
  | more h1 h2 h3 h4 =>
    have ha := GapLike.of h2 h3 h4
    rw [take_split hd, take_slice he, ← hw, lastLine_next h3, lastLine_next (ha.nl h3), ha.last]

theorem columnAt_eq {T : Bytes} {P n : Nat} (h : lastLine (T.take P) = lastLine (inp.take n)) : columnAt T P = columnAt inp n := by
  unfold columnAt
  unfold lastLine at h
  rw [h]

theorem Next.goes (hx : Next inp T h w q w' R' Q) (hw : w = slice inp e q) (he : e ≤ q) (hd : T.drop E = w' ++ R') {m : Bool} {c : Nat}
    (hg : ¬ Goes inp m c q) : ¬ Goes T m c (E + w'.length) := by
  rintro ⟨g1, g2⟩
  have hd' := drop_add hd
  cases hx with
  | done h1 h2 h3 =>
    rw [h3] at hd'
    cases m with
    | true =>
      simp only [if_true] at g2
      rw [getD_peek, peek_of hd'] at g2
      exact g2.2 rfl
    | false =>
      simp only [Bool.false_eq_true, if_false] at g2
      have := some_peek g2
      rw [peek_of hd'] at this
      exact absurd this (by decide)
  | more h1 h2 h3 h4 h5 h6 =>
    refine hg ⟨?_, ?_⟩
    · rw [← g1]
      exact (columnAt_eq (Next.line (.more h1 h2 h3 h4 h5 h6 : Next inp T h w q w' R' Q) hw he hd h1)).symm
    · have hp : peekAt T (E + w'.length) = peekAt inp q := by rw [peek_of hd', h5]
      cases m with
      | true =>
        simp only [if_true] at g2 ⊢
        rw [getD_peek, hp] at g2
        rw [getD_peek]
        exact g2
      | false =>
        simp only [Bool.false_eq_true, if_false] at g2 ⊢
        exact peek_some (by rw [← hp]; exact some_peek g2) (by decide)

/-- A scalar is read in the same way. -/
theorem Token.along {s : Bytes} {a : AnyV} (hx : Next inp T h w q w' R' Q) (hw : w = slice inp e q) (he : e ≤ q) (ht : Token false (inp.drop e) s a) :
    Token false (w' ++ R') s a := by
  cases hx with
  | done h1 h2 h3 =>
    rw [h2, h3, List.append_nil, hw, h1]
    unfold slice
    rw [List.take_of_length_le (by simp)]
    exact ht
  | more h1 h2 h3 h4 =>
    have ha := GapLike.of h2 h3 h4
    obtain ⟨b, r, r', e1, e2, e3⟩ := ha.head
    have hb : b ≠ COLON ∧ b ≠ SQ := by
      rcases e3 with rfl | e3
      · decide
      · constructor <;> (rintro rfl; revert e3; decide)
    have hdr : inp.drop e = w ++ inp.drop q := by
      rw [hw]
      obtain ⟨k, rfl⟩ := Nat.le.dest he
      unfold slice
      rw [Nat.add_sub_cancel_left, ← List.drop_drop, List.take_append_drop]
    rw [hdr] at ht
    cases ht with
    | number t1 t2 =>
      refine .number t1 ?_
      simp only [Bool.false_eq_true, if_false] at t2 ⊢
      rw [ha.ends (inp.drop q)]
      exact t2
    | plain t1 t2 =>
      refine .plain t1 ?_
      unfold plainText at t2 ⊢
      simp only [Bool.false_eq_true, if_false, Bool.and_eq_true] at t2 ⊢
      obtain ⟨u1, ⟨⟨u2, u3⟩, u4⟩, u5⟩ := t2
      refine ⟨u1, ⟨⟨u2, u3⟩, ?_⟩, ?_⟩
      · rw [e1] at u4
        rw [e2]
        exact u4
      · rw [e1] at u5 u4
        rw [e2]
        have hbn : b = NL := by simpa using u4
        subst hbn
        cases s with
        | nil => rfl
        | cons x s =>
          cases s with
          | nil => exact u5
          | cons y s => exact u5
    | quoted t1 t2 t3 =>
      refine .quoted t1 ?_ ?_
      · intro _
        rw [e2]; exact hb.1
      · intro _
        rw [e2]; exact hb.2

end

end Verif
