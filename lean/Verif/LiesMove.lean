import Verif.PutAfter
import Verif.Lies
/-
The places of the values of a tree when the text before them is another.  Used in proofs only; nothing here is part of the Rust code.
-/
namespace Verif

section
variable {u u' y : Bytes}

/-- From `a` on, everything is in the same column. -/
def Cols (u u' y : Bytes) (a : Nat) : Prop := ∀ n, a ≤ n → columnAt (u' ++ y) (u'.length + n) = columnAt (u ++ y) (u.length + n)

theorem Cols.line {a : Nat} (h : NL ∈ y.take a) : Cols u u' y a := fun _ hn => mv_col (nl_take hn h)

theorem Cols.mono {a b : Nat} (h : Cols u u' y a) (hab : a ≤ b) : Cols u u' y b := fun n hn => h n (by omega)

theorem mv_goesC {m : Bool} {c q : Nat} (h : Cols u u' y q) : Goes (u' ++ y) m c (u'.length + q) ↔ Goes (u ++ y) m c (u.length + q) := by
  unfold Goes
  rw [h q (Nat.le_refl _), sh_getD, sh_getD, sh_get, sh_get]

theorem mv_slice (a b : Nat) : slice (u' ++ y) (u'.length + a) (u'.length + b) = slice (u ++ y) (u.length + a) (u.length + b) := by rw [sh_slice, sh_slice]

theorem mv_next {m blk : Bool} {e : Nat} {last : Bool} {start n : Nat} (h : NextCell (u ++ y) m blk (u.length + e) last start (u.length + n)) :
    ∃ st, NextCell (u' ++ y) m blk (u'.length + e) last (u'.length + st) (u'.length + n) ∧
      cellSpace (u' ++ y) m blk last (u'.length + e) (u'.length + st) (u'.length + n) = cellSpace (u ++ y) m blk last (u.length + e) start (u.length + n) := by
  obtain ⟨c, h1, h2⟩ := h
  have hc : u.length ≤ c := by
    split at h1
    · have := h1.le; omega
    · omega
  obtain ⟨c, rfl⟩ := Nat.exists_eq_add_of_le hc
  rw [sh_get] at h2
  have h1' : if (m || blk) = true then FullGap (u' ++ y) (u'.length + e) (u'.length + c) else u'.length + c = u'.length + e := by
    split
    · next hm => rw [if_pos hm] at h1; exact mv_full h1
    · next hm => rw [if_neg hm] at h1; omega
  rcases h2 with ⟨h2, h3, h4⟩ | ⟨h2, h3, h4, h5⟩
  · by_cases hb : (blk && !m) = true
    · rw [if_pos hb] at h4
      refine ⟨e + 1, ⟨u'.length + c, h1', .inl ⟨h2, by rw [sh_get]; exact h3, ?_⟩⟩, ?_⟩
      · rw [if_pos hb]
        exact ⟨rfl, by omega⟩
      · unfold cellSpace
        rw [hb, h2]
        obtain rfl : n = c + 1 := by omega
        exact mv_slice e c
    · rw [if_neg hb] at h4
      refine ⟨c + 1, ⟨u'.length + c, h1', .inl ⟨h2, by rw [sh_get]; exact h3, ?_⟩⟩, ?_⟩
      · rw [if_neg hb]
        exact ⟨rfl, mv_full (a := c + 1) h4.2⟩
      · unfold cellSpace
        rw [Bool.eq_false_iff.2 hb]
        rw [h4.1]
        exact mv_slice (c + 1) n
  · refine ⟨if m then c else e, ⟨u'.length + c, h1', .inr ⟨h2, by rw [sh_get]; exact h3, by cases m <;> rfl, mv_full h5⟩⟩, ?_⟩
    unfold cellSpace
    rw [h2, h4]
    simp only [Bool.not_true, Bool.and_false, Bool.false_eq_true, if_false]
    rw [show (if m = true then u.length + c else u.length + e) = u.length + (if m = true then c else e) by cases m <;> rfl]
    exact mv_slice _ n

theorem mv_cellKey {n a : Nat} (h : 0 < a) : cellKey (u' ++ y) true (u'.length + n) (u'.length + a) = cellKey (u ++ y) true (u.length + n) (u.length + a) := by
  obtain ⟨a, rfl⟩ : ∃ b, a = b + 1 := ⟨a - 1, by omega⟩
  unfold cellKey
  rw [if_pos rfl, if_pos rfl]
  congr 1
  exact mv_slice n a

end

theorem CellHead.key {inp : Bytes} {m : Bool} {key : RStr} {n a : Nat} (h : CellHead inp (keyOf m key) n a) (hm : m = true) : n < a := by
  subst hm
  obtain ⟨q, h1, -, rfl, -⟩ := h
  omega

mutual
theorem Lies.le {inp : Bytes} {s : Spot} {a : Nat} {t : Tree Unit} {e : Nat} : Lies inp s a t e → a ≤ e ∧ e ≤ inp.length
  | .scalar h1 h2 h3 _ _ => by have := h1.le; omega
  | .open h1 _ _ _ _ => h1.le.1 |> fun h => ⟨Nat.le_trans h h1.le.2, Nat.le_refl _⟩
  | .lines h1 h2 _ h4 _ => by have := h1.le; have := h2.le; omega
  | .empty h1 _ _ => by have := h1.le; omega
  | .dashes h1 _ h3 => by have := h1.le; have := h3.le; omega
  | .keys h1 _ h3 => by have := h1.le; have := h3.le; omega
  | .brackets h1 _ h3 h4 _ => by have := h1.le; have := h3.le; have := h4.le; omega
  | .braces h1 _ h3 h4 _ => by have := h1.le; have := h3.le; have := h4.le; omega
theorem LiesRows.le {inp : Bytes} {m : Bool} {c : Nat} {first : Bool} {ip : Bytes} {lo : Nat} {items : Items Unit} {hi : Nat} :
    LiesRows inp m c first ip lo items hi → lo < hi ∧ hi ≤ inp.length
  | .last _ h2 _ h4 _ _ => by have := h2.lt; have := h4.le; omega
  | .more _ h2 _ h4 h5 h6 => by have := h2.lt; have := h4.le; have := h5.le; have := h6.le; omega
theorem LiesCells.le {inp : Bytes} {m last : Bool} {w : Bytes} {n : Nat} {items : Items Unit} {tr : Bool} {w' : Bytes} {hi : Nat} :
    LiesCells inp m last w n items tr w' hi → n ≤ hi ∧ hi < inp.length
  | .none h => ⟨Nat.le_refl _, (List.getElem?_eq_some_iff.1 h).1⟩
  | .final _ h2 _ h4 h5 h6 => by have := h2.le; have := h4.le; have := h5.le; have := (List.getElem?_eq_some_iff.1 h6).1; omega
  | .cell _ h2 _ _ h4 h5 h6 _ => by have := h2.le; have := h4.le; have := h5.le; have := h6.le; omega
end

mutual
theorem Lies.moved {u u' y : Bytes} (hf : followed (u ++ y) = true) {s : Spot} {t : Tree Unit} {a' e' a e : Nat} :
    Lies (u ++ y) s a' t e' → a' = u.length + a → e' = u.length + e → (s = .flow ∨ Cols u u' y a) → Lies (u' ++ y) s (u'.length + a) t (u'.length + e)
  | .scalar (lo := lo) h1 h2 h3 h4 h5, e1, e2, hn => by
    subst e1 e2
    have := h1.le
    obtain ⟨lo, rfl⟩ := Nat.exists_eq_add_of_le (show u.length ≤ lo by omega)
    rw [← mv_slice (u' := u')]
    exact .scalar (mv_full h1) (by omega) (by rw [sh_len] at h3 ⊢; omega) (by rw [sh_drop, sh_slice] at h4 ⊢; exact h4) (by rw [h5, mv_slice])
  | .open (lo := lo) h1 h2 h3 h4 h5, e1, e2, hn => by
    subst e1
    have := h1.le
    obtain ⟨lo, rfl⟩ := Nat.exists_eq_add_of_le (show u.length ≤ lo by omega)
    rw [sh_len] at e2
    obtain rfl : e = y.length := by omega
    rw [← mv_slice (u' := u'), ← sh_len]
    exact .open (mv_full h1) h2 (by rw [sh_drop] at h3 ⊢; exact h3) h4 (by rw [h5, sh_len, sh_len, mv_slice])
  | .lines (lo := lo) h1 h2 h3 h4 h5, e1, e2, hn => by
    subst e1 e2
    have := h1.le
    obtain ⟨lo, rfl⟩ := Nat.exists_eq_add_of_le (show u.length ≤ lo by omega)
    rw [← mv_slice (u' := u')]
    refine .lines (mv_full h1) (mv_block h2) h3 (by rw [sh_len] at h4 ⊢; omega) ?_
    rcases h5 with h5 | ⟨h5, -⟩
    · exact .inl (by rw [h5, mv_slice])
    · rw [hf] at h5; cases h5
  | .empty (lo := lo) (q := q) h1 h2 h3, e1, e2, hn => by
    subst e1
    obtain rfl : e = a := by omega
    have := h1.le
    have := h2.1
    obtain ⟨lo, rfl⟩ := Nat.exists_eq_add_of_le (show u.length ≤ lo by omega)
    obtain ⟨q, rfl⟩ := Nat.exists_eq_add_of_le (show u.length ≤ q by omega)
    exact .empty (mv_full h1) (sh_firstKey.2 (sh_firstKey.1 h2)) (by rw [(hn.resolve_left (by simp)) _ (by omega)]; exact h3)
  | .dashes (lo := lo) h1 h2 h3, e1, e2, hn => by
    subst e1
    have := h1.le
    obtain ⟨lo, rfl⟩ := Nat.exists_eq_add_of_le (show u.length ≤ lo by omega)
    have hn' := (hn.resolve_left h2).mono (b := lo) (by omega)
    have := h3.moved (u' := u') hf rfl e2 hn'
    rw [← hn' lo (Nat.le_refl _)] at this ⊢
    rw [← mv_slice (u' := u')]
    exact .dashes (mv_full h1) h2 this
  | .keys (lo := lo) h1 h2 h3, e1, e2, hn => by
    subst e1
    have := h1.le
    obtain ⟨lo, rfl⟩ := Nat.exists_eq_add_of_le (show u.length ≤ lo by omega)
    have hn' := (hn.resolve_left h2.1).mono (b := lo) (by omega)
    have := h3.moved (u' := u') hf rfl e2 hn'
    rw [← hn' lo (Nat.le_refl _)] at this h2 ⊢
    rw [← mv_slice (u' := u')]
    exact .keys (mv_full h1) h2 this
  | .brackets (lo := lo) (n := n) (hi := j) h1 h2 h3 h4 h5, e1, e2, hn => by
    subst e1
    have := h1.le
    have := h3.le
    have h6 := h4.le
    have h7 := h4.moved (u' := u') hf (lo := n - u.length) (hi := j - u.length) (by omega) (by omega)
    obtain ⟨lo, rfl⟩ := Nat.exists_eq_add_of_le (show u.length ≤ lo by omega)
    obtain ⟨n, rfl⟩ := Nat.exists_eq_add_of_le (show u.length ≤ n by omega)
    obtain ⟨j, rfl⟩ := Nat.exists_eq_add_of_le (show u.length ≤ j by omega)
    obtain rfl : e = j + 1 := by omega
    rw [Nat.add_sub_cancel_left, Nat.add_sub_cancel_left] at h7
    have h8 := mv_slice (u := u) (u' := u') (y := y) (lo + 1) n
    rw [← Nat.add_assoc, ← Nat.add_assoc] at h8
    rw [← h8] at h7
    rw [← mv_slice (u' := u')]
    exact .brackets (mv_full h1) (by rw [sh_get] at h2 ⊢; exact h2) (mv_full (a := lo + 1) h3) h7 h5
  | .braces (lo := lo) (n := n) (hi := j) h1 h2 h3 h4 h5, e1, e2, hn => by
    subst e1
    have := h1.le
    have := h3.le
    have h6 := h4.le
    have h7 := h4.moved (u' := u') hf (lo := n - u.length) (hi := j - u.length) (by omega) (by omega)
    obtain ⟨lo, rfl⟩ := Nat.exists_eq_add_of_le (show u.length ≤ lo by omega)
    obtain ⟨n, rfl⟩ := Nat.exists_eq_add_of_le (show u.length ≤ n by omega)
    obtain ⟨j, rfl⟩ := Nat.exists_eq_add_of_le (show u.length ≤ j by omega)
    obtain rfl : e = j + 1 := by omega
    rw [Nat.add_sub_cancel_left, Nat.add_sub_cancel_left] at h7
    have h8 := mv_slice (u := u) (u' := u') (y := y) (lo + 1) n
    rw [← Nat.add_assoc, ← Nat.add_assoc] at h8
    rw [← h8] at h7
    rw [← mv_slice (u' := u')]
    exact .braces (mv_full h1) (by rw [sh_get] at h2 ⊢; exact h2) (mv_full (a := lo + 1) h3) h7 h5
theorem LiesRows.moved {u u' y : Bytes} (hf : followed (u ++ y) = true) {m : Bool} {c : Nat} {first : Bool} {ip : Bytes} {items : Items Unit} {lo' hi' lo hi : Nat} :
    LiesRows (u ++ y) m c first ip lo' items hi' → lo' = u.length + lo → hi' = u.length + hi → Cols u u' y lo →
      LiesRows (u' ++ y) m c first ip (u'.length + lo) items (u'.length + hi)
  | .last (a := a) (q := q) h1 h2 h3 h4 h5 h6, e1, e2, hn => by
    have g1 := h2.lt
    have g3 := h4.le
    have g4 := h5.le
    have h7 := h4.moved (u' := u') hf (a := a - u.length) (e := hi) (by omega) e2 (.inr (hn.mono (by omega)))
    subst e1 e2
    obtain ⟨a, rfl⟩ := Nat.exists_eq_add_of_le (show u.length ≤ a by omega)
    obtain ⟨q, rfl⟩ := Nat.exists_eq_add_of_le (show u.length ≤ q by omega)
    rw [Nat.add_sub_cancel_left] at h7
    exact .last (by rw [hn _ (Nat.le_refl _)]; exact h1) (mv_head h2) (by rw [h3, mv_slice]) h7 (mv_full h5)
      (by rw [mv_goesC (u := u) (hn.mono (by omega))]; exact h6)
  | .more (a := a) (e := e) (lo' := n) h1 h2 h3 h4 h5 h6, e1, e2, hn => by
    have g1 := h2.lt
    have g3 := h4.le
    have g4 := h5.le
    have g5 := h6.le
    have h7 := h4.moved (u' := u') hf (a := a - u.length) (e := e - u.length) (by omega) (by omega) (.inr (hn.mono (by omega)))
    have h8 := h6.moved (u' := u') hf (lo := n - u.length) (hi := hi) (by omega) e2 (hn.mono (by omega))
    subst e1 e2
    obtain ⟨a, rfl⟩ := Nat.exists_eq_add_of_le (show u.length ≤ a by omega)
    obtain ⟨e, rfl⟩ := Nat.exists_eq_add_of_le (show u.length ≤ e by omega)
    obtain ⟨n, rfl⟩ := Nat.exists_eq_add_of_le (show u.length ≤ n by omega)
    rw [Nat.add_sub_cancel_left] at h7 h8
    rw [Nat.add_sub_cancel_left] at h7
    rw [← mv_slice (u' := u')] at h8
    exact .more (by rw [hn _ (Nat.le_refl _)]; exact h1) (mv_head h2) (by rw [h3, mv_slice]) h7 (mv_full h5) h8
theorem LiesCells.moved {u u' y : Bytes} (hf : followed (u ++ y) = true) {m last : Bool} {w : Bytes} {items : Items Unit} {tr : Bool} {w' : Bytes} {lo' hi' lo hi : Nat} :
    LiesCells (u ++ y) m last w lo' items tr w' hi' → lo' = u.length + lo → hi' = u.length + hi → LiesCells (u' ++ y) m last w (u'.length + lo) items tr w' (u'.length + hi)
  | .none h, e1, e2 => by
    subst e1
    obtain rfl : hi = lo := by omega
    exact .none (by rw [sh_get] at h ⊢; exact h)
  | .final (a := a) (e := e) h1 h2 h3 h4 h5 h6, e1, e2 => by
    have g1 := h2.le
    have g3 := h4.le
    have g4 := h5.le
    have h7 := h4.moved (u' := u') hf (a := a - u.length) (e := e - u.length) (by omega) (by omega) (.inl rfl)
    subst e1 e2
    obtain ⟨a, rfl⟩ := Nat.exists_eq_add_of_le (show u.length ≤ a by omega)
    obtain ⟨e, rfl⟩ := Nat.exists_eq_add_of_le (show u.length ≤ e by omega)
    rw [Nat.add_sub_cancel_left, Nat.add_sub_cancel_left] at h7
    rw [← mv_slice (u' := u')]
    refine .final (mv_opens h1) (mv_cellHead h2) (fun hm => ?_) h7 (mv_full h5) (by rw [sh_get] at h6 ⊢; exact h6)
    have := h2.key hm
    rw [h3 hm]
    exact (mv_cellKey (by omega)).symm
  | .cell (a := a) (b := b) (e := e) (n' := n) h1 h2 h3 h0 h4 h5 h6 h9, e1, e2 => by
    have g1 := h2.le
    have g2 := h0.le
    have g3 := h4.le
    have g4 := h5.le
    have g5 := h6.le
    have h7 := h4.moved (u' := u') hf (a := a - u.length) (e := e - u.length) (by omega) (by omega) (.inl rfl)
    have h8 := h6.moved (u' := u') hf (lo := n - u.length) (hi := hi) (by omega) e2
    subst e1 e2
    obtain ⟨a, rfl⟩ := Nat.exists_eq_add_of_le (show u.length ≤ a by omega)
    obtain ⟨b, rfl⟩ := Nat.exists_eq_add_of_le (show u.length ≤ b by omega)
    obtain ⟨e, rfl⟩ := Nat.exists_eq_add_of_le (show u.length ≤ e by omega)
    obtain ⟨n, rfl⟩ := Nat.exists_eq_add_of_le (show u.length ≤ n by omega)
    rw [Nat.add_sub_cancel_left] at h7 h8
    rw [Nat.add_sub_cancel_left] at h7
    obtain ⟨st, h10, h11⟩ := mv_next (u' := u') h5
    rw [← h11] at h8
    rw [← mv_atBlock (u' := u')] at h10 h8
    refine .cell (mv_opens h1) (mv_cellHead h2) (fun hm => ?_) (mv_full h0) h7 h10 h8 h9
    have := h2.key hm
    rw [h3 hm]
    exact (mv_cellKey (by omega)).symm
end

end Verif
