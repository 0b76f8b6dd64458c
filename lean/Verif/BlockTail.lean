import Verif.LaidDocs
import Verif.PutInner
import Verif.PutAfter
/-
Another text after a block scalar that keeps no line breaks: helper lemmas for C87.
-/
namespace Verif

/-- The text `t` is a block scalar over two lines or more, which keeps no line breaks at its end, and all its lines but the first are to the right of column `c`.  What is read (`a`) does not end with white space. -/
def Strips (c : Nat) (t : Bytes) (a : AnyV) : Prop := t.take 2 ∈ [b! "|-", b! ">-"] ∧ NL ∈ t ∧ (∀ p < t.length, NL ∈ t.take p → isWs (t.getD p 0) = false → c < columnAt t p) ∧
  ∀ v, a = .string v → isWs (v.getLastD 0) = false

namespace NewTail

variable {x y y' : Bytes}

theorem line {a b : Nat} (h : LineAt (x ++ y) a b) (hb : b ≤ x.length) (hl : b < (x ++ y).length) (hn : y'.head? = some NL) : LineAt (x ++ y') a b := by
  obtain ⟨h1, h2, h3⟩ := h
  refine ⟨h1, by rw [Joint.slice hb]; exact h2, .inr ?_⟩
  rcases Nat.lt_or_ge b x.length with h | h
  · rw [Joint.get h]; exact h3.resolve_left (by omega)
  · obtain rfl : b = x.length := by omega
    rw [List.getElem?_append_right (Nat.le_refl _), Nat.sub_self, ← List.head?_eq_getElem?]
    exact hn

theorem rows (hy : y ≠ []) (hn : y'.head? = some NL) {n : Nat} (hgap : FullGap (x ++ y') x.length n) {fo : Bool} {c p : Nat} {v : Bytes} {hi k : Nat} (h : BlockRows (x ++ y) fo c p v hi k)
    (hc : columnAt (x ++ y') n < c) (hx : hi = x.length) (hv : ∀ l b, v = l ++ [b] → isWs b = false) : ∃ k', BlockRows (x ++ y') fo c p v hi k' := by
  have hlen : x.length < (x ++ y).length := by
    rw [List.length_append]
    have := List.length_pos_iff.2 hy
    omega
  have hlen' : x.length < (x ++ y').length := by
    rw [List.length_append]
    cases y' with
    | nil => cases hn
    | cons => simp
  induction h with
  | last h1 h2 h3 h4 h5 =>
    have := h2.1
    exact ⟨_, .last (by omega) (line h2 (by omega) (by omega) hn) (by rw [Joint.slice (by omega)]; exact h3) (by rw [hx]; exact hgap) hc⟩
  | @final p e t h1 h2 h3 h4 h5 =>
    exfalso
    have hnl : (x ++ y)[e]? = some NL := h2.2.2.resolve_left (by omega)
    have hpos : 0 < breaksIn (x ++ y) e (x ++ y).length := by
      unfold breaksIn
      refine List.count_pos_iff.2 ?_
      rw [slice_drop]
      refine List.mem_iff_getElem?.2 ⟨0, ?_⟩
      rw [List.getElem?_drop]
      exact hnl
    generalize breaksIn (x ++ y) e (x ++ y).length = m at hv hpos
    cases fo with
    | true => exact absurd (hv t SP rfl) (by decide)
    | false =>
      obtain ⟨m, rfl⟩ : ∃ j, m = j + 1 := ⟨m - 1, by omega⟩
      refine absurd (hv (t ++ List.replicate m NL) NL ?_) (by decide)
      rw [between, if_neg (by decide), List.replicate_succ', List.append_assoc]
  | @more p e q' hi n' t' v h1 h2 h3 h4 h5 h6 ih =>
    have hl := h4.le
    have := h2.1
    have h7 := h6.le
    have hlt : q' < x.length := by
      rcases Nat.lt_or_ge q' x.length with h | h
      · exact h
      · obtain rfl : q' = hi := by omega
        rcases h6.ends with h8 | h8
        · omega
        · have := h4.2.1
          rw [List.getD_eq_getElem?_getD, h8] at this
          exact absurd this (by decide)
    obtain ⟨k', g2⟩ := ih hx (fun l b he => hv (t' ++ between fo (breaksIn (x ++ y) e q') ++ l) b (by rw [he]; simp))
    refine ⟨k', ?_⟩
    rw [← Joint.breaks (t' := y') (by omega)]
    exact .more (by omega) (line h2 (by omega) (by omega) hn) (by rw [Joint.slice (by omega)]; exact h3) (Inner.full h4 hlt) (by rw [Joint.column (by omega)]; exact h5) g2

theorem start (hy : y ≠ []) {fo : Bool} {c p e : Nat} {v : Bytes} {hi n : Nat} (h : BlockRows (x ++ y) fo c p v hi n) (h4 : FullGap (x ++ y) e p) (hx : hi = x.length) : p < x.length := by
  have h7 := h.le
  have hlen : x.length < (x ++ y).length := by
    rw [List.length_append]
    have := List.length_pos_iff.2 hy
    omega
  rcases Nat.lt_or_ge p x.length with h' | h'
  · exact h'
  · obtain rfl : p = hi := by omega
    rcases h.ends with h8 | h8
    · omega
    · have := h4.2.1
      rw [List.getD_eq_getElem?_getD, h8] at this
      exact absurd this (by decide)

/-- The block scalar is where it was. -/
theorem block (hy : y ≠ []) (hn : y'.head? = some NL) {n : Nat} (hgap : FullGap (x ++ y') x.length n) {lo : Nat} {v : Bytes} {hi c : Nat} (h : BlockAt (x ++ y) lo v hi)
    (hc : columnAt (x ++ y') n ≤ c) (hx : hi = x.length) (hS : Strips c (slice (x ++ y) lo hi) (.string v)) : BlockAt (x ++ y') lo v hi := by
  obtain ⟨fo, ch, h, k, w, h1, h2, h3, h4, h5, rfl⟩ := h
  obtain ⟨s1, s2, s3, s4⟩ := hS
  have h6 := h5.le
  have hlen : x.length < (x ++ y).length := by
    rw [List.length_append]
    have := List.length_pos_iff.2 hy
    omega
  have hlen' : x.length < (x ++ y').length := by
    rw [List.length_append]
    cases y' with
    | nil => cases hn
    | cons => simp
  -- no line breaks are kept
  have hlen3 := congrArg List.length h3
  rw [slice_length h2] at hlen3
  have hch : ch = .strip := by
    have h7 : (x ++ y)[lo + 1]? = some DASH := by
      simp only [List.mem_cons, List.not_mem_nil, or_false] at s1
      have : ((slice (x ++ y) lo hi).take 2)[1]? = some DASH := by rcases s1 with hn | hn <;> (rw [hn]; rfl)
      rw [List.getElem?_take, if_pos (by omega), slice, List.getElem?_take] at this
      split at this
      · rw [List.getElem?_drop] at this; exact this
      · cases this
    cases ch with
    | strip => rfl
    | clip =>
      simp [Chomp.text] at hlen3
      have := (h4 rfl).1
      rw [show h = lo + 1 by omega, List.getD_eq_getElem?_getD, h7] at this
      exact absurd rfl this
    | keep =>
      simp [Chomp.text] at hlen3
      have h8 : (slice (x ++ y) lo h)[1]? = some DASH := by
        rw [show h = lo + 2 by omega]
        simpa [slice, List.getElem?_drop] using h7
      rw [h3] at h8
      exact absurd h8 (by cases fo <;> decide)
  subst hch
  have hv : ∀ l b, w = l ++ [b] → isWs b = false := by
    intro l b he
    have := s4 _ rfl
    rw [endBreaks, if_pos rfl, List.append_nil, he] at this
    simpa using this
  -- the column of the lines
  have hcol : ∀ p, lo ≤ p → p < x.length → NL ∈ slice (x ++ y) lo p → isWs ((x ++ y).getD p 0) = false → columnAt (x ++ y') n < columnAt (x ++ y) p := by
    intro p p1 p2 p3 p4
    obtain ⟨j, rfl⟩ := Nat.exists_eq_add_of_le p1
    have hlt : ((x ++ y).take lo).length = lo := by rw [List.length_take]; omega
    have hcut := List.take_append_drop lo (x ++ y)
    have e0 : slice (x ++ y) lo (lo + j) = ((x ++ y).drop lo).take j := by rw [slice, Nat.add_sub_cancel_left]
    rw [e0] at p3
    have e1 := mv_col (u := (x ++ y).take lo) (u' := []) (y := (x ++ y).drop lo) (n := j) p3
    rw [hcut, hlt, List.nil_append, List.length_nil, Nat.zero_add] at e1
    have hsl : (slice (x ++ y) lo hi).length = hi - lo := slice_length (by omega)
    have e2 : (x ++ y).drop lo = slice (x ++ y) lo hi ++ (x ++ y).drop hi := by
      rw [← slice_drop, ← slice_append (b := hi) (by omega) (by omega), slice_drop]
    have e3 : columnAt (slice (x ++ y) lo hi) j = columnAt (x ++ y) (lo + j) := by
      rw [← e1, e2, append_column (by omega)]
    have := s3 j (by omega) (by
      have : (slice (x ++ y) lo hi).take j = ((x ++ y).drop lo).take j := by rw [e2, List.take_append_of_le_length (by omega)]
      rw [this]; exact p3) (by
      have : (slice (x ++ y) lo hi).getD j 0 = (x ++ y).getD (lo + j) 0 := by
        rw [List.getD_eq_getElem?_getD, List.getD_eq_getElem?_getD, ← List.getElem?_drop, e2, List.getElem?_append_left (by omega)]
      rw [this]; exact p4)
    omega
  have hmem : ∀ {a b : Nat}, lo ≤ a → a ≤ b → 0 < breaksIn (x ++ y) a b → NL ∈ slice (x ++ y) lo b := by
    intro a b q1 q2 q3
    rw [← slice_append q1 q2]
    exact List.mem_append_right _ (List.count_pos_iff.1 q3)
  suffices hb : h < x.length ∧ ∃ k', BlockBody (x ++ y') fo h w hi k' by
    obtain ⟨hb1, k', hb2⟩ := hb
    exact ⟨fo, .strip, h, k', w, h1, by omega, by rw [Joint.slice (by omega)]; exact h3, (fun h => by cases h), hb2, rfl⟩
  cases h5 with
  | @below p _ _ _ g1 g2 g3 =>
    have g4 := start hy g3 g1 hx
    have gl := g1.le
    obtain ⟨k', g5⟩ := rows hy hn hgap g3 (hcol p (by omega) g4 (hmem (by omega) gl.1 g2) g1.2.1) hx hv
    rw [← Joint.column (t' := y') (by omega)] at g5
    exact ⟨by omega, k', .below (Inner.full g1 g4) (by rw [Joint.breaks (by omega)]; exact g2) g5⟩
  | nothing g1 g2 =>
    exfalso
    rw [h3] at s2
    revert s2
    cases fo <;> decide
  | beside g1 g2 g3 g4 g5 =>
    exfalso
    rw [← slice_append (b := h) (by omega) g3.1] at s2
    rcases List.mem_append.1 s2 with s2 | s2
    · rw [h3] at s2
      revert s2
      cases fo <;> decide
    · exact g3.2.1 s2
  | @both q' e p _ _ _ _ g1 g2 g3 g4 g5 g6 =>
    have := g6.le
    have g7 := g5.le
    have g8 := start hy g6 g5 hx
    have gl := g1.le
    have g10 := g3.1
    have hep : e < p := by
      rcases Nat.lt_or_ge e p with h' | h'
      · exact h'
      · exfalso
        obtain rfl : e = p := by omega
        have he := g3.2.2.resolve_left (by omega)
        have := g5.2.1
        rw [List.getD_eq_getElem?_getD, he] at this
        exact absurd this (by decide)
    have hbr : 0 < breaksIn (x ++ y) e p := by
      have he := g3.2.2.resolve_left (by omega)
      unfold breaksIn
      refine List.count_pos_iff.2 (List.mem_iff_getElem?.2 ⟨0, ?_⟩)
      rw [slice, List.getElem?_take, if_pos (by omega), List.getElem?_drop]
      exact he
    obtain ⟨k', g9⟩ := rows hy hn hgap g6 (hcol p (by omega) g8 (hmem (by omega) (by omega) hbr) g5.2.1) hx (fun l b he => hv (_ ++ between fo 1 ++ l) b (by rw [he, ← List.append_assoc]))
    rw [← Joint.column (t' := y') (by omega)] at g9
    have hq' : q' ≤ e := by
      rcases Nat.lt_or_ge e q' with h9 | h9
      · exfalso
        have := Swap.lineNl (by omega) g3 h9
        have h12 : breaksIn (x ++ y) e q' ≤ breaksIn (x ++ y) h q' := by
          unfold breaksIn
          rw [← slice_append g10 (Nat.le_of_lt h9), List.count_append]
          omega
        omega
      · exact h9
    exact ⟨by omega, k', .both (Inner.full g1 (by omega)) (by rw [Joint.breaks (by omega)]; exact g2) (line g3 (by omega) (by omega) hn) (by rw [Joint.slice (by omega)]; exact g4) (Inner.full g5 g8) g9⟩

end NewTail

end Verif
