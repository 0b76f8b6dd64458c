import Verif.PutBefore
/-
Another text before the last part of a text: the values in the last part that do not depend on columns, or are on a later line, are moved.
-/
namespace Verif

/-- The column of a position depends on its line only. -/
theorem sh_colNl (u : Bytes) {y : Bytes} {n : Nat} (h : NL ∈ y.take n) : columnAt (u ++ y) (u.length + n) = columnAt y n := by
  unfold columnAt
  rw [List.take_append, List.take_of_length_le (by omega), Nat.add_sub_cancel_left, List.reverse_append, List.takeWhile_append]
  split
  · next h1 =>
    exfalso
    have h2 := (List.takeWhile_sublist (· != NL) (l := (y.take n).reverse)).eq_of_length h1
    have h3 : NL ∈ List.takeWhile (· != NL) (y.take n).reverse := by
      rw [h2]
      exact List.mem_reverse.2 h
    have h4 := List.all_takeWhile (p := (· != NL)) (l := (y.take n).reverse)
    have := List.all_eq_true.1 h4 NL h3
    exact absurd this (by decide)
  · rfl

theorem nl_take {y : Bytes} {a b : Nat} (hab : a ≤ b) (h : NL ∈ y.take a) : NL ∈ y.take b :=
  (List.take_sublist_take_left hab).mem h

theorem nl_slice {y : Bytes} {a b : Nat} (h : NL ∈ slice y a b) : NL ∈ y.take b := by
  unfold slice at h
  rw [← List.take_append_drop a (y.take b), List.drop_take]
  exact List.mem_append_right _ h

section
variable {u u' y : Bytes}

theorem mv_full {a b : Nat} (h : FullGap (u ++ y) (u.length + a) (u.length + b)) : FullGap (u' ++ y) (u'.length + a) (u'.length + b) :=
  sh_full.2 (sh_full.1 h)

theorem mv_col {n : Nat} (h : NL ∈ y.take n) : columnAt (u' ++ y) (u'.length + n) = columnAt (u ++ y) (u.length + n) := by
  rw [sh_colNl _ h, sh_colNl _ h]

theorem mv_line {a b : Nat} (h : LineAt (u ++ y) (u.length + a) (u.length + b)) : LineAt (u' ++ y) (u'.length + a) (u'.length + b) := by
  unfold LineAt at h ⊢
  rw [sh_slice, sh_get, sh_len] at h ⊢
  exact ⟨by omega, h.2.1, h.2.2.imp_left fun h => by omega⟩

theorem mv_goes {m : Bool} {c q : Nat} (h : NL ∈ y.take q) : Goes (u' ++ y) m c (u'.length + q) ↔ Goes (u ++ y) m c (u.length + q) := by
  unfold Goes
  rw [sh_colNl _ h, sh_colNl _ h, sh_getD, sh_getD, sh_get, sh_get]

theorem mv_head {first : Bool} {k : Option Bytes} {lo a : Nat} (h : Head (u ++ y) first k (u.length + lo) (u.length + a)) :
    Head (u' ++ y) first k (u'.length + lo) (u'.length + a) := by
  cases k with
  | none =>
    obtain ⟨h1, h2, h3⟩ := h
    rw [show u.length + lo + 1 = u.length + (lo + 1) from rfl, sh_getD] at h2
    refine ⟨by rw [sh_get] at h1 ⊢; exact h1, ?_, by omega⟩
    rw [show u'.length + lo + 1 = u'.length + (lo + 1) from rfl, sh_getD]
    exact h2
  | some k =>
    obtain ⟨q, h0, h⟩ := h
    have hq : u.length ≤ q := by
      cases first with
      | true => exact Nat.le_trans (Nat.le_add_right ..) h.1
      | false => exact Nat.le_trans (Nat.le_add_right ..) (Nat.le_of_lt h.1)
    obtain ⟨q, rfl⟩ := Nat.exists_eq_add_of_le hq
    refine ⟨u'.length + q, by omega, ?_⟩
    cases first with
    | true => exact sh_firstKey.2 (sh_firstKey.1 h)
    | false =>
      obtain ⟨h1, h2, h3, h4⟩ := h
      exact ⟨by omega, by rw [sh_get] at h2 ⊢; exact h2, by rw [sh_slice] at h3 ⊢; exact h3, h4⟩

theorem mv_cellHead {k : Option Bytes} {lo a : Nat} (h : CellHead (u ++ y) k (u.length + lo) (u.length + a)) :
    CellHead (u' ++ y) k (u'.length + lo) (u'.length + a) := by
  cases k with
  | none =>
    have : u.length + a = u.length + lo := h
    rw [show a = lo by omega]; exact rfl
  | some k =>
    obtain ⟨q, h1, h2, h0, h3⟩ := h
    obtain ⟨q, rfl⟩ := Nat.exists_eq_add_of_le (show u.length ≤ q by omega)
    exact ⟨u'.length + q, by omega, by rw [sh_get] at h2 ⊢; exact h2, by omega, by rw [sh_slice] at h3 ⊢; exact h3⟩

theorem mv_nextCell {m blk : Bool} {e : Nat} {last : Bool} {start n : Nat} (h : NextCell (u ++ y) m blk (u.length + e) last start (u.length + n)) :
    ∃ start', NextCell (u' ++ y) m blk (u'.length + e) last start' (u'.length + n) := by
  obtain ⟨c, h1, h2⟩ := h
  have hc : u.length ≤ c := by
    split at h1
    · have := h1.le; omega
    · omega
  obtain ⟨c, rfl⟩ := Nat.exists_eq_add_of_le hc
  rw [sh_get] at h2
  have h1' : if (m || blk) = true then FullGap (u' ++ y) (u'.length + e) (u'.length + c) else u'.length + c = u'.length + e := by
    split
    · next hm => rw [if_pos hm] at h1; exact mv_full h1
    · next hm => rw [if_neg hm] at h1; omega
  rcases h2 with ⟨h2, h3, h4⟩ | ⟨h2, h3, h4, h5⟩
  · by_cases hb : (blk && !m) = true
    · rw [if_pos hb] at h4
      refine ⟨u'.length + e + 1, u'.length + c, h1', .inl ⟨h2, by rw [sh_get]; exact h3, ?_⟩⟩
      rw [if_pos hb]
      exact ⟨rfl, by omega⟩
    · rw [if_neg hb] at h4
      refine ⟨u'.length + c + 1, u'.length + c, h1', .inl ⟨h2, by rw [sh_get]; exact h3, ?_⟩⟩
      rw [if_neg hb]
      exact ⟨rfl, mv_full (a := c + 1) h4.2⟩
  · exact ⟨_, u'.length + c, h1', .inr ⟨h2, by rw [sh_get]; exact h3, rfl, mv_full h5⟩⟩

theorem mv_atBlock {n : Nat} : atBlock (u' ++ y) (u'.length + n) = atBlock (u ++ y) (u.length + n) := by
  unfold atBlock
  rw [sh_getD, sh_getD]

theorem mv_opens {m : Bool} {n : Nat} (h : Opens (u ++ y) m (u.length + n)) : Opens (u' ++ y) m (u'.length + n) := by
  unfold Opens at h ⊢
  rw [sh_getD] at h ⊢
  exact h

theorem mv_rows {fo : Bool} {c : Nat} {v : Bytes} {n a' hi' : Nat} (h : BlockRows (u ++ y) fo c a' v hi' n) :
    ∀ {a hi : Nat}, a' = u.length + a → hi' = u.length + hi → NL ∈ y.take a → BlockRows (u' ++ y) fo c (u'.length + a) v (u'.length + hi) n := by
  induction h with
  | @last _ _ q _ h1 h2 h3 h4 h5 =>
    rintro a hi rfl rfl hn
    have := h4.le
    have := h2.1
    obtain ⟨q, rfl⟩ := Nat.exists_eq_add_of_le (show u.length ≤ q by omega)
    rw [sh_breaks, ← sh_breaks u']
    exact .last (by rw [sh_len] at h1 ⊢; omega) (mv_line h2) (by rw [sh_slice] at h3 ⊢; exact h3) (mv_full h4) (by rw [mv_col (u := u) (nl_take (by omega) hn)]; exact h5)
  | final h1 h2 h3 h4 h5 =>
    rintro a hi rfl rfl hn
    have := h4.le
    have := h2.1
    simp only [sh_len] at h1 h4 h5 ⊢
    rw [sh_breaks, ← sh_breaks u', ← sh_len]
    refine .final (by rw [sh_len]; omega) (mv_line h2) (by rw [sh_slice] at h3 ⊢; exact h3) (by rw [sh_len]; exact mv_full h4) ?_
    rw [sh_len, mv_col (u := u) (nl_take (a := a) (by omega) hn)]
    exact h5
  | @more p e q hi n t v h1 h2 h3 h4 h5 h6 ih =>
    rintro a hi rfl rfl hn
    have := h4.le
    have := h2.1
    have := h6.le
    obtain ⟨j, rfl⟩ := Nat.exists_eq_add_of_le (show u.length ≤ q by omega)
    obtain ⟨e, rfl⟩ := Nat.exists_eq_add_of_le (show u.length ≤ e by omega)
    rw [sh_breaks, ← sh_breaks u']
    have hj := nl_take (b := j) (by omega) hn
    exact .more (by rw [sh_len] at h1 ⊢; omega) (mv_line h2) (by rw [sh_slice] at h3 ⊢; exact h3) (mv_full h4) (by rw [mv_col (u := u) hj]; exact h5)
      (ih rfl rfl hj)

theorem mv_body {fo : Bool} {h : Nat} {v : Bytes} {hi n : Nat} (hb : BlockBody (u ++ y) fo (u.length + h) v (u.length + hi) n) :
    BlockBody (u' ++ y) fo (u'.length + h) v (u'.length + hi) n := by
  generalize hh' : u.length + hi = hi' at hb
  cases hb with
  | @below p _ _ _ h1 h2 h3 =>
    have := h1.le
    have := h3.le
    obtain ⟨p, rfl⟩ := Nat.exists_eq_add_of_le (show u.length ≤ p by omega)
    have hn : NL ∈ y.take p := by
      rw [sh_breaks] at h2
      exact nl_slice (a := h) (List.count_pos_iff.1 h2)
    have h4 := mv_rows (u' := u') h3 rfl hh'.symm hn
    rw [← mv_col (u' := u') hn] at h4
    exact .below (mv_full h1) (by rw [sh_breaks] at h2 ⊢; exact h2) h4
  | nothing h1 h2 =>
    obtain rfl : hi = h := by omega
    simp only [sh_len] at h1 h2 ⊢
    rw [sh_breaks] at h2 ⊢
    rw [← sh_breaks u', ← sh_len] at h2 ⊢
    exact .nothing (by rw [sh_len]; exact mv_full h1) h2
  | @beside q e _ h1 h2 h3 h4 h5 =>
    subst hh'
    have := h1.le
    obtain ⟨q, rfl⟩ := Nat.exists_eq_add_of_le (show u.length ≤ q by omega)
    simp only [sh_len] at h5 ⊢
    rw [sh_breaks, ← sh_breaks u', ← sh_len]
    exact .beside (mv_full h1) (by rw [sh_breaks] at h2 ⊢; exact h2) (mv_line h3) (by rw [sh_slice] at h4 ⊢; exact h4) (by rw [sh_len]; exact mv_full h5)
  | @both q e p _ _ _ _ h1 h2 h3 h4 h5 h6 =>
    have := h1.le
    have h10 := h3.1
    have := h5.le
    have h11 := h6.le
    obtain ⟨q, rfl⟩ := Nat.exists_eq_add_of_le (show u.length ≤ q by omega)
    obtain ⟨e, rfl⟩ := Nat.exists_eq_add_of_le (show u.length ≤ e by omega)
    obtain ⟨p, rfl⟩ := Nat.exists_eq_add_of_le (show u.length ≤ p by omega)
    have hlt : u.length + p < (u ++ y).length := by
      cases h6 <;> assumption
    have he : (u ++ y)[u.length + e]? = some NL := by
      rcases h3.2.2 with h | h
      · omega
      · exact h
    have hep : e < p := by
      rcases Nat.lt_or_ge e p with h | h
      · exact h
      · exfalso
        obtain rfl : e = p := by omega
        have := h5.2.1
        rw [List.getD_eq_getElem?_getD, he] at this
        exact absurd this (by decide)
    have hn : NL ∈ y.take p := by
      rw [sh_get] at he
      refine List.mem_iff_getElem?.2 ⟨e, ?_⟩
      rw [List.getElem?_take, if_pos hep]
      exact he
    have h8 := mv_rows (u' := u') h6 rfl hh'.symm hn
    rw [← mv_col (u' := u') hn] at h8
    exact .both (mv_full h1) (by rw [sh_breaks] at h2 ⊢; exact h2) (mv_line h3) (by rw [sh_slice] at h4 ⊢; exact h4) (mv_full h5) h8

theorem mv_block {lo : Nat} {v : Bytes} {hi : Nat} (h : BlockAt (u ++ y) (u.length + lo) v (u.length + hi)) : BlockAt (u' ++ y) (u'.length + lo) v (u'.length + hi) := by
  obtain ⟨fo, ch, h, n, w, h1, h2, h3, h4, h5, rfl⟩ := h
  obtain ⟨h, rfl⟩ := Nat.exists_eq_add_of_le (show u.length ≤ h by omega)
  exact ⟨fo, ch, u'.length + h, n, w, by omega, by rw [sh_len] at h2 ⊢; omega, by rw [sh_slice] at h3 ⊢; exact h3, by rw [sh_getD] at h4 ⊢; exact h4, mv_body h5, rfl⟩

end

mutual
theorem Sits.moved {α : Type} {u u' y : Bytes} {V : View α} {s : Spot} {v : α} {lo' hi' lo hi : Nat} :
    Sits (u ++ y) V s v lo' hi' → lo' = u.length + lo → hi' = u.length + hi → (s = .flow ∨ NL ∈ y.take lo) → Sits (u' ++ y) V s v (u'.length + lo) (u'.length + hi)
  | .scalar h1 h2 h3 h4, e1, e2, hn => by
    subst e1 e2
    exact .scalar h1 (by omega) (by rw [sh_len] at h3 ⊢; omega) (by rw [sh_drop, sh_slice] at h4 ⊢; exact h4)
  | .lines h1 h2, e1, e2, hn => by
    subst e1 e2
    exact .lines h1 (mv_block h2)
  | .open h1 h2 h3 h4, e1, e2, hn => by
    subst e1
    rw [sh_len] at h2 e2
    obtain rfl : hi = y.length := by omega
    rw [← sh_len]
    exact .open h1 (by rw [sh_len]; omega) h3 (by rw [sh_drop] at h4 ⊢; exact h4)
  | .empty (q := q) h1 h2 h3, e1, e2, hn => by
    subst e1
    obtain rfl : hi = lo := by omega
    have := h2.1
    obtain ⟨q, rfl⟩ := Nat.exists_eq_add_of_le (show u.length ≤ q by omega)
    exact .empty h1 (sh_firstKey.2 (sh_firstKey.1 h2)) (by rw [mv_col (u := u) (hn.resolve_left (by simp))]; exact h3)
  | .dashes h1 h2 h3, e1, e2, hn => by
    have := h3.moved (u' := u') e1 e2 (hn.resolve_left h2)
    rw [e1, ← mv_col (u' := u') (hn.resolve_left h2)] at this
    exact .dashes h1 h2 this
  | .keys h1 h2 h3, e1, e2, hn => by
    have := h3.moved (u' := u') e1 e2 (hn.resolve_left h2.1)
    rw [e1, ← mv_col (u' := u') (hn.resolve_left h2.1)] at this
    rw [e1, ← mv_col (u' := u') (hn.resolve_left h2.1)] at h2
    exact .keys h1 h2 this
  | .brackets (n := n) (hi := j) h1 h2 h3 h4, e1, e2, hn => by
    have h5 := h3.le
    have h6 := h4.le
    have h7 := h4.moved (u' := u') (lo := n - u.length) (hi := j - u.length) (by omega) (by omega)
    subst e1
    obtain ⟨n, rfl⟩ := Nat.exists_eq_add_of_le (show u.length ≤ n by omega)
    obtain ⟨j, rfl⟩ := Nat.exists_eq_add_of_le (show u.length ≤ j by omega)
    obtain rfl : hi = j + 1 := by omega
    rw [Nat.add_sub_cancel_left, Nat.add_sub_cancel_left] at h7
    exact .brackets h1 (by rw [sh_get] at h2 ⊢; exact h2) (mv_full (a := lo + 1) h3) h7
  | .braces (n := n) (hi := j) h1 h2 h3 h4, e1, e2, hn => by
    have h5 := h3.le
    have h6 := h4.le
    have h7 := h4.moved (u' := u') (lo := n - u.length) (hi := j - u.length) (by omega) (by omega)
    subst e1
    obtain ⟨n, rfl⟩ := Nat.exists_eq_add_of_le (show u.length ≤ n by omega)
    obtain ⟨j, rfl⟩ := Nat.exists_eq_add_of_le (show u.length ≤ j by omega)
    obtain rfl : hi = j + 1 := by omega
    rw [Nat.add_sub_cancel_left, Nat.add_sub_cancel_left] at h7
    exact .braces h1 (by rw [sh_get] at h2 ⊢; exact h2) (mv_full (a := lo + 1) h3) h7
theorem Rows.moved {α : Type} {u u' y : Bytes} {V : View α} {c : Nat} {first : Bool} {l : List (Option Bytes × α)} {lo' hi' lo hi : Nat} :
    Rows (u ++ y) V c first l lo' hi' → lo' = u.length + lo → hi' = u.length + hi → NL ∈ y.take lo → Rows (u' ++ y) V c first l (u'.length + lo) (u'.length + hi)
  | .last (a := a) (b := b) (q := q) h1 h2 h3 h4 h5 h6, e1, e2, hn => by
    have g1 := h2.lt
    have g2 := h3.le
    have g3 := h4.le
    have g4 := h5.le
    have h7 := h4.moved (u' := u') (lo := b - u.length) (hi := hi) (by omega) e2 (.inr (nl_take (a := lo) (by omega) hn))
    subst e1 e2
    obtain ⟨a, rfl⟩ := Nat.exists_eq_add_of_le (show u.length ≤ a by omega)
    obtain ⟨b, rfl⟩ := Nat.exists_eq_add_of_le (show u.length ≤ b by omega)
    obtain ⟨q, rfl⟩ := Nat.exists_eq_add_of_le (show u.length ≤ q by omega)
    rw [Nat.add_sub_cancel_left] at h7
    exact .last (by rw [mv_col (u := u) hn]; exact h1) (mv_head h2) (mv_full h3) h7 (mv_full h5)
      (by rw [mv_goes (u := u) (nl_take (a := lo) (by omega) hn)]; exact h6)
  | .more (a := a) (b := b) (e := e) (lo' := n) h1 h2 h3 h4 h5 h6, e1, e2, hn => by
    have g1 := h2.lt
    have g2 := h3.le
    have g3 := h4.le
    have g4 := h5.le
    have g5 := h6.le
    have h7 := h4.moved (u' := u') (lo := b - u.length) (hi := e - u.length) (by omega) (by omega) (.inr (nl_take (a := lo) (by omega) hn))
    have h8 := h6.moved (u' := u') (lo := n - u.length) (hi := hi) (by omega) e2 (nl_take (a := lo) (by omega) hn)
    subst e1 e2
    obtain ⟨a, rfl⟩ := Nat.exists_eq_add_of_le (show u.length ≤ a by omega)
    obtain ⟨b, rfl⟩ := Nat.exists_eq_add_of_le (show u.length ≤ b by omega)
    obtain ⟨e, rfl⟩ := Nat.exists_eq_add_of_le (show u.length ≤ e by omega)
    obtain ⟨n, rfl⟩ := Nat.exists_eq_add_of_le (show u.length ≤ n by omega)
    rw [Nat.add_sub_cancel_left] at h7 h8
    rw [Nat.add_sub_cancel_left] at h7
    exact .more (by rw [mv_col (u := u) hn]; exact h1) (mv_head h2) (mv_full h3) h7 (mv_full h5) h8
theorem Cells.moved {α : Type} {u u' y : Bytes} {V : View α} {m last : Bool} {l : List (Option Bytes × α)} {lo' hi' lo hi : Nat} :
    Cells (u ++ y) V m last l lo' hi' → lo' = u.length + lo → hi' = u.length + hi → Cells (u' ++ y) V m last l (u'.length + lo) (u'.length + hi)
  | .none h, e1, e2 => by
    subst e1
    obtain rfl : hi = lo := by omega
    exact .none (by rw [sh_get] at h ⊢; exact h)
  | .final (a := a) (b := b) (e := e) h1 h2 h3 h4 h5 h6, e1, e2 => by
    have g1 := h2.le
    have g2 := h3.le
    have g3 := h4.le
    have g4 := h5.le
    have h7 := h4.moved (u' := u') (lo := b - u.length) (hi := e - u.length) (by omega) (by omega) (.inl rfl)
    subst e1 e2
    obtain ⟨a, rfl⟩ := Nat.exists_eq_add_of_le (show u.length ≤ a by omega)
    obtain ⟨b, rfl⟩ := Nat.exists_eq_add_of_le (show u.length ≤ b by omega)
    obtain ⟨e, rfl⟩ := Nat.exists_eq_add_of_le (show u.length ≤ e by omega)
    rw [Nat.add_sub_cancel_left, Nat.add_sub_cancel_left] at h7
    exact .final (mv_opens h1) (mv_cellHead h2) (mv_full h3) h7 (mv_full h5) (by rw [sh_get] at h6 ⊢; exact h6)
  | .cell (a := a) (b := b) (e := e) (n' := n) h1 h2 h3 h4 h5 h6, e1, e2 => by
    have g1 := h2.le
    have g2 := h3.le
    have g3 := h4.le
    have g4 := h5.le
    have g5 := h6.le
    have h7 := h4.moved (u' := u') (lo := b - u.length) (hi := e - u.length) (by omega) (by omega) (.inl rfl)
    have h8 := h6.moved (u' := u') (lo := n - u.length) (hi := hi) (by omega) e2
    subst e1 e2
    obtain ⟨a, rfl⟩ := Nat.exists_eq_add_of_le (show u.length ≤ a by omega)
    obtain ⟨b, rfl⟩ := Nat.exists_eq_add_of_le (show u.length ≤ b by omega)
    obtain ⟨e, rfl⟩ := Nat.exists_eq_add_of_le (show u.length ≤ e by omega)
    obtain ⟨n, rfl⟩ := Nat.exists_eq_add_of_le (show u.length ≤ n by omega)
    rw [Nat.add_sub_cancel_left] at h7 h8
    rw [Nat.add_sub_cancel_left] at h7
    obtain ⟨start', h9⟩ := mv_nextCell (u' := u') h5
    rw [← mv_atBlock (u' := u')] at h9
    exact .cell (mv_opens h1) (mv_cellHead h2) (mv_full h3) h7 h9 h8
end

end Verif
