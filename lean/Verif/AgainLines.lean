import Verif.AgainNext
/-
Reading again what was written for a block scalar.
-/
namespace Verif

section
variable {inp T : Bytes} {hl : Bool} {w : Bytes} {n e q : Nat} {w' R' : Bytes} {P Q : Nat}

/-- The block scalar at `n` to `e` is written at `P`. -/
structure Moved (inp T : Bytes) (hl : Bool) (w : Bytes) (n e q : Nat) (w' R' : Bytes) (P Q : Nat) : Prop where
  next : Next inp T hl w q w' R' Q
  ws : w = slice inp e q
  gap : FullGap inp e q
  text : T.drop P = slice inp n e ++ (w' ++ R')
  start : P ≤ T.length
  le : n ≤ e

theorem mem_slice {inp : Bytes} {a b x : Nat} {c : UInt8} (h : inp[x]? = some c) (h1 : a ≤ x) (h2 : x < b) : c ∈ slice inp a b := by
  unfold slice
  refine List.mem_iff_getElem?.2 ⟨x - a, ?_⟩
  rw [List.getElem?_take_of_lt (by omega), List.getElem?_drop]
  rw [show a + (x - a) = x by omega, h]

theorem mem_slice_mono {inp : Bytes} {a b a' b' : Nat} {c : UInt8} (h : c ∈ slice inp a b) (h1 : a' ≤ a) (h2 : a ≤ b) (h3 : b ≤ b') : c ∈ slice inp a' b' := by
  rw [← slice_append h1 (Nat.le_trans h2 h3), ← slice_append h2 h3]
  exact List.mem_append_right _ (List.mem_append_left _ h)

theorem Moved.drop (M : Moved inp T hl w n e q w' R' P Q) {x : Nat} (h1 : n ≤ x) (h2 : x ≤ e) : T.drop (P + (x - n)) = slice inp x e ++ (w' ++ R') := by
  have he := M.gap.le
  have h := M.text
  rw [← slice_append h1 h2, List.append_assoc] at h
  have := drop_add h
  rwa [slice_length (by omega)] at this

theorem Moved.peek (M : Moved inp T hl w n e q w' R' P Q) {x : Nat} (h1 : n ≤ x) (h2 : x ≤ e) : peekAt T (P + (x - n)) = peekAt inp x := by
  have he := M.gap.le
  rw [peek_of (M.drop h1 h2)]
  rcases Nat.eq_or_lt_of_le h2 with rfl | h2
  · rw [slice_self]; exact M.next.peek M.ws he.1
  · rw [← peek_slice h2]
    cases hs : slice inp x e with
    | nil =>
      have := congrArg List.length hs
      rw [slice_length (by omega)] at this; simp at this; omega
    | cons b r => rfl

theorem Moved.slice (M : Moved inp T hl w n e q w' R' P Q) {x y : Nat} (h1 : n ≤ x) (h2 : x ≤ y) (h3 : y ≤ e) :
    slice T (P + (x - n)) (P + (y - n)) = Verif.slice inp x y := by
  have he := M.gap.le
  have h := M.drop h1 (Nat.le_trans h2 h3)
  rw [← slice_append h2 h3, List.append_assoc] at h
  have := slice_of h
  rw [slice_length (by omega), show P + (x - n) + (y - x) = P + (y - n) by omega] at this
  exact this

theorem Moved.done (M : Moved inp T hl w n e q w' R' P Q) (h : q = inp.length) : w' = w ∧ R' = [] ∧ T.length = P + (e - n) + w'.length := by
  have he := M.gap.le
  cases M.next with
  | done h1 h2 h3 =>
    refine ⟨h2, h3, ?_⟩
    have := congrArg List.length M.text
    rw [h3, List.length_drop, List.append_nil, List.length_append, slice_length (by omega)] at this
    have := M.start
    omega
  | more h1 => omega

theorem Moved.line (M : Moved inp T hl w n e q w' R' P Q) {x y : Nat} (h : LineAt inp x y) (h1 : n ≤ x) (h3 : y ≤ e) : LineAt T (P + (x - n)) (P + (y - n)) := by
  have he := M.gap.le
  have h2 := h.1
  refine ⟨by omega, by rw [M.slice h1 h2 h3]; exact h.2.1, ?_⟩
  rcases h.2.2 with h4 | h4
  · left
    obtain rfl : y = e := by omega
    obtain ⟨d1, d2, d3⟩ := M.done (by omega)
    rw [d1, M.ws, show q = y by omega, slice_self] at d3
    simpa using d3.symm
  · right
    exact peek_some (by rw [M.peek (by omega) h3]; exact some_peek h4) (by decide)

theorem Moved.fullGap (M : Moved inp T hl w n e q w' R' P Q) {x y : Nat} (h : FullGap inp x y) (h1 : n ≤ x) (h3 : y < e ∨ y = e ∧ e = inp.length) :
    FullGap T (P + (x - n)) (P + (y - n)) := by
  have he := M.gap.le
  have h2 := h.le
  have hp := M.peek (x := y) (by omega) (by omega)
  have hs := M.slice h1 h2.1 (by omega)
  have hlen : P + (y - n) ≤ T.length := by
    have := congrArg List.length M.text
    rw [List.length_drop, List.length_append, slice_length (by omega)] at this
    have := M.start
    omega
  refine ⟨⟨by omega, hlen, ?_⟩, ?_, ?_⟩
  · rw [hs]
    rcases h.1.2.2 with h4 | ⟨h4, h5⟩
    · exact .inl h4
    · right
      refine ⟨?_, h5⟩
      obtain rfl : y = e := by omega
      obtain ⟨d1, d2, d3⟩ := M.done (by omega)
      rw [d1, M.ws, show q = y by omega, slice_self] at d3
      simpa using d3.symm
  · rw [getD_peek, hp, ← getD_peek]; exact h.2.1
  · rw [getD_peek, hp, ← getD_peek]; exact h.2.2

theorem Moved.column (M : Moved inp T hl w n e q w' R' P Q) {x : Nat} (h1 : n ≤ x) (h2 : x ≤ e) (hn : NL ∈ Verif.slice inp n x) :
    columnAt T (P + (x - n)) = columnAt inp x := by
  have he := M.gap.le
  apply columnAt_eq
  have h := M.text
  rw [← slice_append h1 h2, List.append_assoc] at h
  have := take_split h
  rw [slice_length (by omega)] at this
  rw [this, take_slice h1, lastLine_next hn, lastLine_next hn]

theorem Moved.stop (M : Moved inp T hl w n e q w' R' P Q) : T.drop (P + (e - n)) = w' ++ R' ∧ P + (e - n) ≤ T.length := by
  have he := M.gap.le
  have h1 := M.drop M.le (Nat.le_refl e)
  rw [slice_self, List.nil_append] at h1
  refine ⟨h1, ?_⟩
  have := congrArg List.length M.text
  rw [List.length_drop, List.length_append, slice_length (by omega)] at this
  have := M.start
  omega

theorem Moved.column_end (M : Moved inp T hl w n e q w' R' P Q) (hn : NL ∈ Verif.slice inp n e) : columnAt T (P + (e - n) + w'.length) = columnAt inp q := by
  have he := M.gap.le
  obtain ⟨s1, s2⟩ := M.stop
  by_cases hq : q = inp.length
  · obtain ⟨d1, d2, d3⟩ := M.done hq
    apply columnAt_eq
    have h := M.text
    rw [← List.append_assoc] at h
    have h5 := take_split h
    rw [List.length_append, slice_length (by omega), ← Nat.add_assoc] at h5
    rw [h5, take_slice (Nat.le_trans M.le he.1), ← slice_append M.le he.1, ← M.ws, d1, ← List.append_assoc]
    rw [← List.append_assoc]
    by_cases hw : NL ∈ w
    · rw [lastLine_next hw, lastLine_next hw]
    · rw [lastLine_keep hw, lastLine_keep hw, lastLine_next hn, lastLine_next hn]
  · exact columnAt_eq (M.next.line M.ws he.1 s1 (by omega))

theorem Moved.breaks (M : Moved inp T hl w n e q w' R' P Q) : breaksIn T (P + (e - n)) (P + (e - n) + w'.length) = breaksIn inp e q := by
  unfold breaksIn
  rw [slice_of M.stop.1, M.next.breaks, M.ws]

theorem line_lt {inp : Bytes} {p e : Nat} (h : LineAt inp p e) (hp : p < inp.length) (hw : isWs (peekAt inp p) = false) : p < e := by
  refine Nat.lt_of_le_of_ne h.1 fun hc => ?_
  subst hc
  rcases h.2.2 with h | h
  · omega
  · rw [some_peek h] at hw; revert hw; decide

theorem BlockRows.past {inp : Bytes} {fo : Bool} {c p : Nat} {v : Bytes} {hi k : Nat} (h : BlockRows inp fo c p v hi k) (hw : isWs (peekAt inp p) = false) :
    p < hi ∧ p < inp.length := by
  cases h with
  | last h1 h2 => exact ⟨line_lt h2 h1 hw, h1⟩
  | final h1 h2 => exact ⟨line_lt h2 h1 hw, h1⟩
  | more h1 h2 h3 h4 h5 h6 => exact ⟨by have := line_lt h2 h1 hw; have := h4.le; have := h6.bounds; omega, h1⟩

theorem Moved.rows (M : Moved inp T hl w n e q w' R' P Q) {fo : Bool} {c p : Nat} {v : Bytes} {hi k : Nat} (h : BlockRows inp fo c p v hi k) :
    hi = e → n ≤ p → NL ∈ Verif.slice inp n p → isWs (peekAt inp p) = false → BlockRows T fo c (P + (p - n)) v (P + (e - n)) k := by
  obtain ⟨s1, s2⟩ := M.stop
  induction h with
  | last h1 h2 h3 h4 h5 =>
    rintro rfl hp hn hw
    obtain rfl := h4.unique M.gap
    have hlt := line_lt h2 h1 hw
    rw [← M.breaks]
    refine .last (by omega) (M.line h2 hp (Nat.le_refl _)) (by rw [M.slice hp h2.1 (Nat.le_refl _)]; exact h3) (M.next.full M.ws M.gap s1 s2) ?_
    rw [M.column_end (mem_slice_mono hn (Nat.le_refl _) hp h2.1)]
    exact h5
  | final h1 h2 h3 h4 h5 =>
    rintro rfl hp hn hw
    obtain rfl := h4.unique M.gap
    have hlt := line_lt h2 h1 hw
    obtain ⟨-, -, d3⟩ := M.done rfl
    have hb := M.breaks
    have hf := M.next.full M.ws M.gap s1 s2
    have hc := M.column_end (mem_slice_mono hn (Nat.le_refl _) hp h2.1)
    rw [← d3] at hb hf hc
    rw [← hb]
    exact .final (by omega) (M.line h2 hp (Nat.le_refl _)) (by rw [M.slice hp h2.1 (Nat.le_refl _)]; exact h3) hf (by rw [hc]; exact h5)
  | @more p' e' q' hi' n' t v h1 h2 h3 h4 h5 h6 ih =>
    rintro rfl hp hn hw
    have hlt := line_lt h2 h1 hw
    have hw' : isWs (peekAt inp q') = false := by have := h4.2.1; rwa [getD_peek] at this
    have hlt' := h6.past hw'
    have hl4 := h4.le
    have := ih rfl (by omega) (mem_slice_mono hn (Nat.le_refl _) hp (by omega)) hw'
    have hb : breaksIn T (P + (e' - n)) (P + (q' - n)) = breaksIn inp e' q' := by
      unfold breaksIn
      rw [M.slice (by omega) hl4.1 (by omega)]
    rw [← hb]
    refine .more (by omega) (M.line h2 hp (by omega)) (by rw [M.slice hp h2.1 (by omega)]; exact h3) (M.fullGap h4 (by omega) (.inl (by omega))) ?_ this
    rw [M.column (by omega) (by omega) (mem_slice_mono hn (Nat.le_refl _) hp (by omega))]
    exact h5

/-- The gap without a line break ends on the line. -/
theorem gap_line {inp : Bytes} {x e y : Nat} (h1 : LineAt inp x e) (h2 : FullGap inp x y) (h3 : breaksIn inp x y = 0) (he : e ≤ inp.length) :
    y < e ∨ y = e ∧ e = inp.length := by
  have hl := h2.le
  rcases Nat.lt_trichotomy y e with h | rfl | h
  · exact .inl h
  · right
    refine ⟨rfl, h1.2.2.resolve_right fun h => ?_⟩
    have := h2.2.1
    rw [getD_peek, some_peek h] at this
    revert this; decide
  · exfalso
    rcases h1.2.2 with h4 | h4
    · omega
    · have := List.count_pos_iff.2 (mem_slice h4 h1.1 h)
      unfold breaksIn at h3
      omega

theorem Moved.body (M : Moved inp T hl w n e q w' R' P Q) {fo : Bool} {h : Nat} {v : Bytes} {k : Nat} (hb : BlockBody inp fo h v e k) (hn : n ≤ h) :
    BlockBody T fo (P + (h - n)) v (P + (e - n)) k := by
  obtain ⟨s1, s2⟩ := M.stop
  have he := M.gap.le
  have hle := hb.le
  cases hb with
  | @below p _ _ _ h1 h2 h3 =>
    have hw : isWs (peekAt inp p) = false := by have := h1.2.1; rwa [getD_peek] at this
    have hlt := h3.past hw
    have hl := h1.le
    have hnl : NL ∈ Verif.slice inp n p := mem_slice_mono (List.count_pos_iff.1 h2) hn hl.1 (Nat.le_refl _)
    have := M.rows h3 rfl (by omega) hnl hw
    rw [← M.column (by omega) (by omega) hnl] at this
    exact .below (M.fullGap h1 hn (.inl hlt.1)) (by unfold breaksIn; rw [M.slice hn hl.1 (by omega)]; exact h2) this
  | nothing h1 h2 =>
    obtain rfl := h1.unique M.gap
    obtain ⟨-, -, d3⟩ := M.done rfl
    have hb := M.breaks
    have hf := M.next.full M.ws M.gap s1 s2
    rw [← d3] at hb hf
    rw [← hb]
    exact .nothing hf (by rw [hb]; exact h2)
  | beside h1 h2 h3 h4 h5 =>
    obtain rfl := h5.unique M.gap
    obtain ⟨-, -, d3⟩ := M.done rfl
    have hb := M.breaks
    have hf := M.next.full M.ws M.gap s1 s2
    rw [← d3] at hb hf
    rw [← hb]
    have hg := gap_line h3 h1 h2 (by omega)
    have hl := h1.le
    exact .beside (M.fullGap h1 hn hg) (by unfold breaksIn; rw [M.slice hn hl.1 (by omega)]; exact h2) (M.line h3 hn (Nat.le_refl _))
      (by rw [M.slice hn h3.1 (Nat.le_refl _)]; exact h4) hf
  | @both y e1 p _ _ _ _ h1 h2 h3 h4 h5 h6 =>
    have hw : isWs (peekAt inp p) = false := by have := h5.2.1; rwa [getD_peek] at this
    have hlt := h6.past hw
    have hl := h1.le
    have hl5 := h5.le
    have hg := gap_line h3 h1 h2 (by omega)
    have h31 := h3.1
    have hnl : inp[e1]? = some NL := h3.2.2.resolve_left (by omega)
    have hne : e1 ≠ p := by
      rintro rfl
      rw [some_peek hnl] at hw
      revert hw; decide
    have hm : NL ∈ Verif.slice inp n p := mem_slice hnl (by omega) (by omega)
    have := M.rows h6 rfl (by omega) hm hw
    rw [← M.column (by omega) (by omega) hm] at this
    exact .both (M.fullGap h1 hn (.inl (by omega))) (by unfold breaksIn; rw [M.slice hn hl.1 (by omega)]; exact h2) (M.line h3 hn (by omega))
      (by rw [M.slice hn h31 (by omega)]; exact h4) (M.fullGap h5 (by omega) (.inl (by omega))) this

theorem Moved.block (M : Moved inp T hl w n e q w' R' P Q) {v : Bytes} (h : BlockAt inp n v e) : BlockAt T P v (P + (e - n)) := by
  obtain ⟨fo, ch, st, k, x, h1, h2, h3, h4, h5, rfl⟩ := h
  have hle := h5.le
  obtain ⟨s1, s2⟩ := M.stop
  have hs := M.slice (Nat.le_refl n) (Nat.le_of_lt h1) hle
  rw [Nat.sub_self, Nat.add_zero] at hs
  refine ⟨fo, ch, P + (st - n), k, x, by omega, by omega, by rw [hs]; exact h3, fun hc => ?_, M.body h5 (by omega), rfl⟩
  rw [getD_peek, M.peek (by omega) hle, ← getD_peek]
  exact h4 hc

end

end Verif
