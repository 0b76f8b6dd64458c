import Verif.LiesStay
import Verif.LiesKeep
import Verif.Put
/-
Another value in the place of a value of a tree: where the values of the tree are then.  Used in proofs only; nothing here is part of the Rust code.
-/
namespace Verif

mutual
/-- A tree as `K` says is to be put in the place from `B` to `Q` (see `Put`; `B` is before the white space in front of the place).  `x` is the new tree of what is at `a` to `hi`
in the text. -/
inductive LPut (inp : Bytes) (B Q E : Nat) (fl : Bool) (K : Spot → Tree Unit → Prop) : Spot → Nat → Tree Unit → Nat → Prop
  | here {s : Spot} {x : Tree Unit} : s.inline = fl → (s ≠ .flow → Q = E) → K s x → LPut inp B Q E fl K s B x Q
  | dashes {s : Spot} {a lo hi : Nat} {items : Items Unit} : FullGap inp a lo → s ≠ .flow → LPutRows inp B Q E fl K false (columnAt inp lo) true [] lo items hi →
    LPut inp B Q E fl K s a (.node () (slice inp a lo) false (columnAt inp lo) .block items) hi
  | keys {s : Spot} {a lo hi : Nat} {items : Items Unit} : FullGap inp a lo → s.allows (columnAt inp lo) → LPutRows inp B Q E fl K true (columnAt inp lo) true [] lo items hi →
    LPut inp B Q E fl K s a (.node () (slice inp a lo) true (columnAt inp lo) .block items) hi
  | brackets {s : Spot} {a lo n hi : Nat} {items : Items Unit} {tr : Bool} {w : Bytes} : FullGap inp a lo → inp[lo]? = some LBR → FullGap inp (lo + 1) n → (s ≠ .flow → hi + 1 = E) →
    LPutCells inp B Q E fl K false false (slice inp (lo + 1) n) n items tr w hi →
    LPut inp B Q E fl K s a (.node () (slice inp a lo) false 0 (.inline tr w) items) (hi + 1)
  | braces {s : Spot} {a lo n hi : Nat} {items : Items Unit} {tr : Bool} {w : Bytes} : FullGap inp a lo → inp[lo]? = some LCB → FullGap inp (lo + 1) n → (s ≠ .flow → hi + 1 = E) →
    LPutCells inp B Q E fl K true false (slice inp (lo + 1) n) n items tr w hi →
    LPut inp B Q E fl K s a (.node () (slice inp a lo) true 0 (.inline tr w) items) (hi + 1)
inductive LPutRows (inp : Bytes) (B Q E : Nat) (fl : Bool) (K : Spot → Tree Unit → Prop) : (m : Bool) → Nat → (first : Bool) → Bytes → Nat → Items Unit → Nat → Prop
  | last {m : Bool} {key : RStr} {ip : Bytes} {c : Nat} {first : Bool} {lo a hi q : Nat} {v : Tree Unit} : columnAt inp lo = c → Head inp first (keyOf m key) lo a →
    rowHead m key = slice inp lo a → LPut inp B Q E fl K (.item c (keyOf m key)) a v hi → FullGap inp hi q → ¬ Goes inp m c q →
    LPutRows inp B Q E fl K m c first ip lo (.cons () ip key v .nil) hi
  | head {m : Bool} {key : RStr} {ip : Bytes} {c : Nat} {first : Bool} {lo a e lo' hi : Nat} {v : Tree Unit} {items : Items Unit} : columnAt inp lo = c →
    Head inp first (keyOf m key) lo a → rowHead m key = slice inp lo a → LPut inp B Q E fl K (.item c (keyOf m key)) a v e → FullGap inp e lo' →
    LiesRows inp m c false (slice inp e lo') lo' items hi → LPutRows inp B Q E fl K m c first ip lo (.cons () ip key v items) hi
  | tail {m : Bool} {key : RStr} {ip : Bytes} {c : Nat} {first : Bool} {lo a e lo' hi : Nat} {v : Tree Unit} {items : Items Unit} : columnAt inp lo = c →
    Head inp first (keyOf m key) lo a → rowHead m key = slice inp lo a → Lies inp (.item c (keyOf m key)) a v e → FullGap inp e lo' →
    LPutRows inp B Q E fl K m c false (slice inp e lo') lo' items hi → LPutRows inp B Q E fl K m c first ip lo (.cons () ip key v items) hi
inductive LPutCells (inp : Bytes) (B Q E : Nat) (fl : Bool) (K : Spot → Tree Unit → Prop) : (m last : Bool) → (w : Bytes) → Nat → Items Unit → Bool → Bytes → Nat → Prop
  | final {m : Bool} {key : RStr} {w : Bytes} {n a e hi : Nat} {v : Tree Unit} : Opens inp m n → CellHead inp (keyOf m key) n a →
    (m = true → key.write ++ [COLON] = cellKey inp true n a) → LPut inp B Q E fl K .flow a v e →
    FullGap inp e hi → inp[hi]? = some (close m) → LPutCells inp B Q E fl K m true w n (.cons () w key v .nil) false (slice inp e hi) hi
  | head {m : Bool} {key : RStr} {last tr : Bool} {w w' : Bytes} {n a b e start n' hi : Nat} {v : Tree Unit} {items : Items Unit} : Opens inp m n →
    CellHead inp (keyOf m key) n a → (m = true → key.write ++ [COLON] = cellKey inp true n a) → FullGap inp a b → LPut inp B Q E fl K .flow a v e →
    NextCell inp m (atBlock inp b) e last start n' →
    LiesCells inp m last (cellSpace inp m (atBlock inp b) last e start n') n' items tr w' hi → (items.isNil = true → tr = !last) →
    LPutCells inp B Q E fl K m false w n (.cons () w key v items) tr w' hi
  | tail {m : Bool} {key : RStr} {last tr : Bool} {w w' : Bytes} {n a b e start n' hi : Nat} {v : Tree Unit} {items : Items Unit} : Opens inp m n →
    CellHead inp (keyOf m key) n a → (m = true → key.write ++ [COLON] = cellKey inp true n a) → FullGap inp a b → Lies inp .flow a v e →
    NextCell inp m (atBlock inp b) e last start n' →
    LPutCells inp B Q E fl K m last (cellSpace inp m (atBlock inp b) last e start n') n' items tr w' hi →
    LPutCells inp B Q E fl K m false w n (.cons () w key v items) tr w' hi
end

section
variable {inp : Bytes} {B Q E : Nat} {fl : Bool} {K : Spot → Tree Unit → Prop}

mutual
theorem LPut.le {s : Spot} {a : Nat} {x : Tree Unit} {hi : Nat} : LPut inp B Q E fl K s a x hi → a ≤ B ∧ Q ≤ hi
  | .here _ _ _ => ⟨Nat.le_refl _, Nat.le_refl _⟩
  | .dashes h1 _ h => by have := h1.le; have := h.le; omega
  | .keys h1 _ h => by have := h1.le; have := h.le; omega
  | .brackets h0 _ h1 _ h => by have := h0.le; have := h1.le; have := h.le; omega
  | .braces h0 _ h1 _ h => by have := h0.le; have := h1.le; have := h.le; omega
theorem LPutRows.le {m : Bool} {c : Nat} {first : Bool} {ip : Bytes} {lo : Nat} {items : Items Unit} {hi : Nat} : LPutRows inp B Q E fl K m c first ip lo items hi → lo < B ∧ Q ≤ hi
  | .last _ h1 _ h3 _ _ => by have := h1.lt; have := h3.le; omega
  | .head _ h1 _ h3 h4 h5 => by have := h1.lt; have := h3.le; have := h4.le; have := h5.le; omega
  | .tail _ h1 _ h3 h4 h5 => by have := h1.lt; have := h3.le; have := h4.le; have := h5.le; omega
theorem LPutCells.le {m last : Bool} {w : Bytes} {n : Nat} {items : Items Unit} {tr : Bool} {w' : Bytes} {hi : Nat} :
    LPutCells inp B Q E fl K m last w n items tr w' hi → n ≤ B ∧ Q ≤ hi ∧ items.isNil = false
  | .final _ h1 _ h3 h4 _ => by have := h1.le; have := h3.le; have := h4.le; exact ⟨by omega, by omega, rfl⟩
  | .head _ h1 _ _ h3 h4 h5 _ => by have := h1.le; have := h3.le; have := h4.le; have := h5.le; exact ⟨by omega, by omega, rfl⟩
  | .tail _ h1 _ _ h3 h4 h5 => by have := h1.le; have := h3.le; have := h4.le; have := h5.le; exact ⟨by omega, by omega, rfl⟩
end

theorem LPut.start {P : Nat} (hB : FullGap inp B P) {s : Spot} {a b : Nat} {x : Tree Unit} {hi : Nat} (h : LPut inp B Q E fl K s a x hi) (h0 : FullGap inp a b) : b ≤ P := by
  have hb := hB.le
  cases h with
  | here _ _ _ => rw [h0.unique hB]; exact Nat.le_refl _
  | dashes h1 _ h => have := h.le; rw [h0.unique h1]; omega
  | keys h1 _ h => have := h.le; rw [h0.unique h1]; omega
  | brackets h1 _ h2 _ h => have := h.le; have := h2.le; rw [h0.unique h1]; omega
  | braces h1 _ h2 _ h => have := h.le; have := h2.le; rw [h0.unique h1]; omega

mutual
theorem LPut.line (hl : ∀ g, FullGap inp E g → NL ∈ slice inp Q g ∨ g = inp.length) {s : Spot} {a : Nat} {x : Tree Unit} {hi : Nat} : LPut inp B Q E fl K s a x hi → s ≠ .flow →
    hi = E ∨ NL ∈ slice inp Q hi
  | .here _ h _, hs => .inl (h hs)
  | .dashes _ _ h, _ => h.line hl
  | .keys _ _ h, _ => h.line hl
  | .brackets _ _ _ h _, hs => .inl (h hs)
  | .braces _ _ _ h _, hs => .inl (h hs)
theorem LPutRows.line (hl : ∀ g, FullGap inp E g → NL ∈ slice inp Q g ∨ g = inp.length) {m : Bool} {c : Nat} {first : Bool} {ip : Bytes} {lo : Nat} {items : Items Unit} {hi : Nat} :
    LPutRows inp B Q E fl K m c first ip lo items hi → hi = E ∨ NL ∈ slice inp Q hi
  | .last _ _ _ h _ _ => h.line hl (Spot.item_ne _ _)
  | .head _ _ _ h h1 h2 => by
    have h4 := h2.le
    have h5 := h1.le
    refine .inr (nl_slice_le (Nat.le_of_lt h4.1) ?_)
    rcases h.line hl (Spot.item_ne _ _) with h | h
    · subst h
      rcases hl _ h1 with h | h
      · exact h
      · omega
    · exact nl_slice_le h5.1 h
  | .tail _ _ _ _ _ h => h.line hl
end

mutual
theorem LPutCells.flow {m last : Bool} {w : Bytes} {n : Nat} {items : Items Unit} {tr : Bool} {w' : Bytes} {hi : Nat} : LPutCells inp B Q E fl K m last w n items tr w' hi → fl = true
  | .final _ _ _ h _ _ => h.flow rfl
  | .head _ _ _ _ h _ _ _ => h.flow rfl
  | .tail _ _ _ _ _ _ h => h.flow
theorem LPut.flow {s : Spot} {a : Nat} {x : Tree Unit} {hi : Nat} : LPut inp B Q E fl K s a x hi → s = .flow → fl = true
  | .here h _ _, hs => by rw [← h, hs]; rfl
  | .dashes _ h _, hs => absurd hs h
  | .keys _ h _, hs => absurd hs h.1
  | .brackets _ _ _ _ h, _ => h.flow
  | .braces _ _ _ _ h, _ => h.flow
end
end

namespace Hole
variable {p t t' q : Bytes} {E : Nat} {fl : Bool} (H : Hole p t t' q E fl)

theorem slice {a b : Nat} (h : b ≤ p.length) : Verif.slice (p ++ t' ++ q) a b = Verif.slice (p ++ t ++ q) a b := by
  rw [List.append_assoc, List.append_assoc]
  exact Joint.slice h

theorem cellKey {m : Bool} {n a : Nat} (h : a ≤ p.length) : Verif.cellKey (p ++ t' ++ q) m n a = Verif.cellKey (p ++ t ++ q) m n a := by
  rw [List.append_assoc, List.append_assoc]
  exact Joint.cellKey h

theorem cellSpace {m blk last : Bool} {e start n : Nat} (h : n ≤ p.length) :
    Verif.cellSpace (p ++ t' ++ q) m blk last e start n = Verif.cellSpace (p ++ t ++ q) m blk last e start n := by
  rw [List.append_assoc, List.append_assoc]
  exact Joint.cellSpace h

include H in
theorem lies (hf : followed (p ++ t ++ q) = true) {s : Spot} {v : Tree Unit} {a e g : Nat} (h : Lies (p ++ t ++ q) s a v e) (hg : FullGap (p ++ t ++ q) e g) (hh : e < p.length)
    (hq : g ≤ p.length) (hs : s = .flow ∨ g < p.length) (hk : FromColon (p ++ t ++ q) s a) : Lies (p ++ t' ++ q) s a v e := by
  rw [List.append_assoc] at h hg hk hf ⊢
  exact h.before H.ahead hf hg hh hq hs hk

include H in
theorem notNext (hfl : fl = true) {v : Tree Unit} {a e : Nat} (h : Lies (p ++ t ++ q) .flow a v e) : e ≠ p.length := by
  obtain ⟨lo, hi, -, h2, h3⟩ := h.sits
  have := h3.flow
  subst this
  exact H.next hfl h2
end Hole

mutual
theorem LPut.lies {p t t' q : Bytes} {B E : Nat} {fl : Bool} {K : Spot → Tree Unit → Prop} (H : Hole p t t' q E fl) (hf : followed (p ++ t ++ q) = true)
    (hB : FullGap (p ++ t ++ q) B p.length) (hK : ∀ s x, s.inline = fl → K s x → Lies (p ++ t' ++ q) s B x (p ++ t').length) {s : Spot} {a : Nat} {x : Tree Unit} {hi' hi : Nat} :
    LPut (p ++ t ++ q) B (p ++ t).length E fl K s a x hi' → hi' = (p ++ t).length + hi → Lies (p ++ t' ++ q) s a x ((p ++ t').length + hi)
  | .here h1 h2 h3, e => by
    obtain rfl : hi = 0 := by omega
    exact hK _ _ h1 h3
  | .dashes h1 h2 h3, e => by
    have hb := hB.le
    have h5 := h3.le
    have h4 := h3.lies H hf hB hK e
    rw [← Hole.column (t' := t') (by omega)] at h4 ⊢
    rw [← Hole.slice (t' := t') (by omega)]
    exact .dashes (H.full h1 (by omega)) h2 h4
  | .keys h1 h2 h3, e => by
    have hb := hB.le
    have h5 := h3.le
    have h4 := h3.lies H hf hB hK e
    rw [← Hole.column (t' := t') (by omega)] at h4 h2 ⊢
    rw [← Hole.slice (t' := t') (by omega)]
    exact .keys (H.full h1 (by omega)) h2 h4
  | .brackets (hi := j) h0 h2 h3 h4 h5, e => by
    have hb := hB.le
    have h7 := h5.le
    have h8 := h3.le
    have h6 := h5.lies H hf hB hK (hi := j - (p ++ t).length) (by omega)
    obtain ⟨j, rfl⟩ := Nat.exists_eq_add_of_le h7.2.1
    obtain rfl : hi = j + 1 := by omega
    rw [Nat.add_sub_cancel_left, ← Hole.slice (t' := t') (by omega)] at h6
    rw [← Hole.slice (t' := t') (by omega)]
    exact .brackets (H.full h0 (by omega)) (by rw [Hole.get (t := t) (by omega)]; exact h2) (H.full h3 (by omega)) h6 (by rw [h7.2.2]; nofun)
  | .braces (hi := j) h0 h2 h3 h4 h5, e => by
    have hb := hB.le
    have h7 := h5.le
    have h8 := h3.le
    have h6 := h5.lies H hf hB hK (hi := j - (p ++ t).length) (by omega)
    obtain ⟨j, rfl⟩ := Nat.exists_eq_add_of_le h7.2.1
    obtain rfl : hi = j + 1 := by omega
    rw [Nat.add_sub_cancel_left, ← Hole.slice (t' := t') (by omega)] at h6
    rw [← Hole.slice (t' := t') (by omega)]
    exact .braces (H.full h0 (by omega)) (by rw [Hole.get (t := t) (by omega)]; exact h2) (H.full h3 (by omega)) h6 (by rw [h7.2.2]; nofun)
theorem LPutRows.lies {p t t' q : Bytes} {B E : Nat} {fl : Bool} {K : Spot → Tree Unit → Prop} (H : Hole p t t' q E fl) (hf : followed (p ++ t ++ q) = true)
    (hB : FullGap (p ++ t ++ q) B p.length) (hK : ∀ s x, s.inline = fl → K s x → Lies (p ++ t' ++ q) s B x (p ++ t').length) {m : Bool} {c : Nat} {first : Bool} {ip : Bytes} {lo : Nat}
    {items : Items Unit} {hi' hi : Nat} : LPutRows (p ++ t ++ q) B (p ++ t).length E fl K m c first ip lo items hi' → hi' = (p ++ t).length + hi →
      LiesRows (p ++ t' ++ q) m c first ip lo items ((p ++ t').length + hi)
  | .last (q := g) h1 h2 h3 h4 h5 h6, e => by
    have hb := hB.le
    have g1 := h2.lt
    have g3 := h4.le
    have g4 := h5.le
    have h7 := h4.lies H hf hB hK e
    have h8 := h4.line H.line (Spot.item_ne _ _)
    obtain ⟨g, rfl⟩ := Nat.exists_eq_add_of_le (show (p ++ t).length ≤ g by omega)
    subst e
    refine .last (by rw [Hole.column (t := t) (by omega)]; exact h1) (H.rowHead h2 (by omega)) (by rw [h3]; exact (Hole.slice (by omega)).symm) h7 (mv_full h5) ?_
    have h9 : NL ∈ slice (p ++ t ++ q) (p ++ t).length ((p ++ t).length + g) ∨ (p ++ t).length + g = (p ++ t ++ q).length := by
      rcases h8 with h8 | h8
      · rw [h8] at h5
        exact H.line _ h5
      · exact .inl (nl_slice_le (by omega) h8)
    rcases h9 with h9 | h9
    · rw [mv_goes (u := p ++ t) (Hole.later h9)]
      exact h6
    · rw [sh_len (p ++ t) q] at h9
      obtain rfl : g = q.length := by omega
      unfold Goes
      rw [sh_get, sh_getD, List.getElem?_eq_none (Nat.le_refl _), List.getD_eq_getElem?_getD, List.getElem?_eq_none (Nat.le_refl _)]
      split
      · rintro ⟨_, _, h⟩; exact h rfl
      · rintro ⟨_, h⟩; cases h
  | .head (e := e0) (lo' := g) h1 h2 h3 h4 h5 h6, e => by
    have hb := hB.le
    have g1 := h2.lt
    have g3 := h4.le
    have g4 := h5.le
    have g5 := h6.le
    have h7 := h4.lies H hf hB hK (hi := e0 - (p ++ t).length) (by omega)
    have h8 := h4.line H.line (Spot.item_ne _ _)
    obtain ⟨g, rfl⟩ := Nat.exists_eq_add_of_le (show (p ++ t).length ≤ g by omega)
    obtain ⟨e0, rfl⟩ := Nat.exists_eq_add_of_le (show (p ++ t).length ≤ e0 by omega)
    rw [Nat.add_sub_cancel_left] at h7
    have h9 : NL ∈ slice (p ++ t ++ q) (p ++ t).length ((p ++ t).length + g) := by
      rcases h8 with h8 | h8
      · rw [h8] at h5
        rcases H.line _ h5 with h | h
        · exact h
        · omega
      · exact nl_slice_le (by omega) h8
    have h10 := h6.moved (u' := p ++ t') hf rfl e (.line (Hole.later h9))
    rw [← mv_slice (u' := p ++ t')] at h10
    exact .more (by rw [Hole.column (t := t) (by omega)]; exact h1) (H.rowHead h2 (by omega)) (by rw [h3]; exact (Hole.slice (by omega)).symm) h7 (mv_full h5) h10
  | .tail h1 h2 h3 h4 h5 h6, e => by
    have hb := hB.le
    have g1 := h2.lt
    have g3 := h4.le
    have g4 := h5.le
    have g5 := h6.le
    have h7 := h6.lies H hf hB hK e
    rw [← Hole.slice (t' := t') (by omega)] at h7
    exact .more (by rw [Hole.column (t := t) (by omega)]; exact h1) (H.rowHead h2 (by omega)) (by rw [h3]; exact (Hole.slice (by omega)).symm)
      (H.lies hf h4 h5 (by omega) (by omega) (.inr (by omega)) (.item h2)) (H.full h5 (by omega)) h7
theorem LPutCells.lies {p t t' q : Bytes} {B E : Nat} {fl : Bool} {K : Spot → Tree Unit → Prop} (H : Hole p t t' q E fl) (hf : followed (p ++ t ++ q) = true)
    (hB : FullGap (p ++ t ++ q) B p.length) (hK : ∀ s x, s.inline = fl → K s x → Lies (p ++ t' ++ q) s B x (p ++ t').length) {m last : Bool} {w : Bytes} {n : Nat} {items : Items Unit}
    {tr : Bool} {w' : Bytes} {hi' hi : Nat} : LPutCells (p ++ t ++ q) B (p ++ t).length E fl K m last w n items tr w' hi' → hi' = (p ++ t).length + hi →
      LiesCells (p ++ t' ++ q) m last w n items tr w' ((p ++ t').length + hi)
  | .final (e := e0) h1 h2 h3 h4 h5 h6, e => by
    have hb := hB.le
    have g1 := h2.le
    have g3 := h4.le
    have g4 := h5.le
    have hfl := h4.flow rfl
    have h7 := h4.lies H hf hB hK (hi := e0 - (p ++ t).length) (by omega)
    obtain ⟨e0, rfl⟩ := Nat.exists_eq_add_of_le (show (p ++ t).length ≤ e0 by omega)
    rw [Nat.add_sub_cancel_left] at h7
    subst e
    rw [← mv_slice (u' := p ++ t')]
    exact .final (H.opens hfl h1 (by omega)) (Hole.cellHead h2 (by omega)) (fun hm => (h3 hm).trans (Hole.cellKey (by omega)).symm) h7 (mv_full h5) (by rw [sh_get] at h6 ⊢; exact h6)
  | .head (b := b) (e := e0) (n' := g) h1 h2 h3 h0 h4 h5 h6 h9, e => by
    have hb := hB.le
    have hbp := h4.start hB h0
    have g1 := h2.le
    have g3 := h4.le
    have g4 := h5.le
    have g5 := h6.le
    have hfl := h4.flow rfl
    have h7 := h4.lies H hf hB hK (hi := e0 - (p ++ t).length) (by omega)
    obtain ⟨g, rfl⟩ := Nat.exists_eq_add_of_le (show (p ++ t).length ≤ g by omega)
    obtain ⟨e0, rfl⟩ := Nat.exists_eq_add_of_le (show (p ++ t).length ≤ e0 by omega)
    rw [Nat.add_sub_cancel_left] at h7
    obtain ⟨st, h10, h11⟩ := mv_next (u' := p ++ t') h5
    have h8 := h6.moved (u' := p ++ t') hf rfl e
    rw [← h11] at h8
    rw [← H.atBlocks hfl hbp] at h8 h10
    exact .cell (H.opens hfl h1 (by omega)) (Hole.cellHead h2 (by omega)) (fun hm => (h3 hm).trans (Hole.cellKey (by omega)).symm) (H.full h0 hbp) h7 h10 h8 h9
  | .tail (b := b) h1 h2 h3 h0 h4 h5 h6, e => by
    have hb := hB.le
    have g1 := h2.le
    have g3 := h4.le
    have g4 := h5.le
    have g5 := h6.le
    have hfl := h6.flow
    have hne := H.notNext hfl h4
    have hbe := h4.start_le h0
    obtain ⟨⟨g, h7, h8⟩, h9⟩ := H.nextCell hfl (by omega) (by omega) h5
    have h10 := h6.lies H hf hB hK e
    rw [← Hole.cellSpace (t' := t') (by omega), ← H.atBlocks hfl (by omega)] at h10
    rw [← H.atBlocks hfl (by omega)] at h9
    exact .cell (H.opens hfl h1 (by omega)) (Hole.cellHead h2 (by omega)) (fun hm => (h3 hm).trans (Hole.cellKey (by omega)).symm) (H.full h0 (by omega))
      (H.lies hf h4 h7 (by omega) h8 (.inl rfl) .flow) h9 h10 (by rw [g5.2.2]; nofun)
end

end Verif
