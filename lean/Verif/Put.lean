import Verif.PutAfter
/-
A scalar in the place of a value: the other values are where they were, or moved.
-/
namespace Verif

mutual
/-- A value as `K` says is to be put in the place from `P` to `Q` (`fl`: in an inline collection).  `x` is the new value of what is at `lo` to `hi` in the text.  The outermost
inline collection that the place is in ends at `E`; it is `Q` if there is none. -/
inductive Put {α : Type} (inp : Bytes) (V : View α) (P Q E : Nat) (fl : Bool) (K : Spot → α → Prop) : Spot → α → Nat → Nat → Prop
  | here {s : Spot} {x : α} : s.inline = fl → (s ≠ .flow → Q = E) → K s x → Put inp V P Q E fl K s x P Q
  | dashes {s : Spot} {x : α} {l : List α} {lo hi : Nat} : V.seq x l → s ≠ .flow → PutRows inp V P Q E fl K (columnAt inp lo) true (l.map fun v => (none, v)) lo hi →
    Put inp V P Q E fl K s x lo hi
  | keys {s : Spot} {x : α} {l : List (Bytes × α)} {lo hi : Nat} : V.map x l → s.allows (columnAt inp lo) →
    PutRows inp V P Q E fl K (columnAt inp lo) true (l.map fun e => (some e.1, e.2)) lo hi → Put inp V P Q E fl K s x lo hi
  | brackets {s : Spot} {x : α} {l : List α} {lo n hi : Nat} : V.seq x l → inp[lo]? = some LBR → FullGap inp (lo + 1) n → (s ≠ .flow → hi + 1 = E) →
    PutCells inp V P Q E fl K false false (l.map fun v => (none, v)) n hi → Put inp V P Q E fl K s x lo (hi + 1)
  | braces {s : Spot} {x : α} {l : List (Bytes × α)} {lo n hi : Nat} : V.map x l → inp[lo]? = some LCB → FullGap inp (lo + 1) n → (s ≠ .flow → hi + 1 = E) →
    PutCells inp V P Q E fl K true false (l.map fun e => (some e.1, e.2)) n hi → Put inp V P Q E fl K s x lo (hi + 1)
inductive PutRows {α : Type} (inp : Bytes) (V : View α) (P Q E : Nat) (fl : Bool) (K : Spot → α → Prop) : Nat → (first : Bool) → List (Option Bytes × α) → Nat → Nat → Prop
  | last {c : Nat} {first : Bool} {k : Option Bytes} {v : α} {lo a b hi q : Nat} : columnAt inp lo = c → Head inp first k lo a → FullGap inp a b →
    Put inp V P Q E fl K (.item c k) v b hi → FullGap inp hi q → ¬ Goes inp k.isSome c q → PutRows inp V P Q E fl K c first [(k, v)] lo hi
  | head {c : Nat} {first : Bool} {k : Option Bytes} {v : α} {rest : List (Option Bytes × α)} {lo a b e lo' hi : Nat} : columnAt inp lo = c →
    Head inp first k lo a → FullGap inp a b → Put inp V P Q E fl K (.item c k) v b e → FullGap inp e lo' → Rows inp V c false rest lo' hi →
    PutRows inp V P Q E fl K c first ((k, v) :: rest) lo hi
  | tail {c : Nat} {first : Bool} {k : Option Bytes} {v : α} {rest : List (Option Bytes × α)} {lo a b e lo' hi : Nat} : columnAt inp lo = c →
    Head inp first k lo a → FullGap inp a b → Sits inp V (.item c k) v b e → FullGap inp e lo' → PutRows inp V P Q E fl K c false rest lo' hi →
    PutRows inp V P Q E fl K c first ((k, v) :: rest) lo hi
inductive PutCells {α : Type} (inp : Bytes) (V : View α) (P Q E : Nat) (fl : Bool) (K : Spot → α → Prop) : (m last : Bool) → List (Option Bytes × α) → Nat → Nat → Prop
  | final {k : Option Bytes} {v : α} {n a b e hi : Nat} : Opens inp k.isSome n → CellHead inp k n a → FullGap inp a b → Put inp V P Q E fl K .flow v b e →
    FullGap inp e hi → inp[hi]? = some (close k.isSome) → PutCells inp V P Q E fl K k.isSome true [(k, v)] n hi
  | head {k : Option Bytes} {v : α} {rest : List (Option Bytes × α)} {last : Bool} {n a b e start n' hi : Nat} : Opens inp k.isSome n → CellHead inp k n a →
    FullGap inp a b → Put inp V P Q E fl K .flow v b e → NextCell inp k.isSome (atBlock inp b) e last start n' → Cells inp V k.isSome last rest n' hi →
    PutCells inp V P Q E fl K k.isSome false ((k, v) :: rest) n hi
  | tail {k : Option Bytes} {v : α} {rest : List (Option Bytes × α)} {last : Bool} {n a b e start n' hi : Nat} : Opens inp k.isSome n → CellHead inp k n a →
    FullGap inp a b → Sits inp V .flow v b e → NextCell inp k.isSome (atBlock inp b) e last start n' → PutCells inp V P Q E fl K k.isSome last rest n' hi →
    PutCells inp V P Q E fl K k.isSome false ((k, v) :: rest) n hi
end

section
variable {α : Type} {inp : Bytes} {V : View α} {P Q E : Nat} {fl : Bool} {K : Spot → α → Prop}

mutual
theorem Put.le {s : Spot} {x : α} {lo hi : Nat} : Put inp V P Q E fl K s x lo hi → lo ≤ P ∧ Q ≤ hi
  | .here _ _ _ => ⟨Nat.le_refl _, Nat.le_refl _⟩
  | .dashes _ _ h => ⟨Nat.le_of_lt h.le.1, h.le.2⟩
  | .keys _ _ h => ⟨Nat.le_of_lt h.le.1, h.le.2⟩
  | .brackets _ _ h1 _ h => by have := h1.le; have := h.le; omega
  | .braces _ _ h1 _ h => by have := h1.le; have := h.le; omega
theorem PutRows.le {c : Nat} {first : Bool} {l : List (Option Bytes × α)} {lo hi : Nat} : PutRows inp V P Q E fl K c first l lo hi → lo < P ∧ Q ≤ hi
  | .last _ h1 h2 h3 _ _ => by have := h1.lt; have := h2.le; have := h3.le; omega
  | .head _ h1 h2 h3 h4 h5 => by have := h1.lt; have := h2.le; have := h3.le; have := h4.le; have := h5.le; omega
  | .tail _ h1 h2 h3 h4 h5 => by have := h1.lt; have := h2.le; have := h3.le; have := h4.le; have := h5.le; omega
theorem PutCells.le {m last : Bool} {l : List (Option Bytes × α)} {n hi : Nat} : PutCells inp V P Q E fl K m last l n hi → n ≤ P ∧ Q ≤ hi
  | .final _ h1 h2 h3 h4 _ => by have := h1.le; have := h2.le; have := h3.le; have := h4.le; omega
  | .head _ h1 h2 h3 h4 h5 => by have := h1.le; have := h2.le; have := h3.le; have := h4.le; have := h5.le; omega
  | .tail _ h1 h2 h3 h4 h5 => by have := h1.le; have := h2.le; have := h3.le; have := h4.le; have := h5.le; omega
end

theorem Spot.item_ne (c : Nat) (k : Option Bytes) : Spot.item c k ≠ .flow := by
  unfold Spot.item
  split <;> simp

theorem Rows.lt_length {c : Nat} {first : Bool} {l : List (Option Bytes × α)} {lo hi : Nat} (h : Rows inp V c first l lo hi) : lo < inp.length := by
  cases h with
  | last _ h1 h2 => have := h1.lt; have := h2.le; omega
  | more _ h1 h2 => have := h1.lt; have := h2.le; omega

theorem nl_slice_le {a b c : Nat} (hbc : b ≤ c) (h : NL ∈ slice inp a b) : NL ∈ slice inp a c := by
  unfold slice at h ⊢
  exact (List.take_sublist_take_left (by omega)).mem h

mutual
/-- After the place there is a line break, or the end of the outermost inline collection. -/
theorem Put.line (hl : ∀ g, FullGap inp E g → NL ∈ slice inp Q g ∨ g = inp.length) {s : Spot} {x : α} {lo hi : Nat} : Put inp V P Q E fl K s x lo hi → s ≠ .flow →
    hi = E ∨ NL ∈ slice inp Q hi
  | .here _ h _, hs => .inl (h hs)
  | .dashes _ _ h, _ => h.line hl
  | .keys _ _ h, _ => h.line hl
  | .brackets _ _ _ h _, hs => .inl (h hs)
  | .braces _ _ _ h _, hs => .inl (h hs)
theorem PutRows.line (hl : ∀ g, FullGap inp E g → NL ∈ slice inp Q g ∨ g = inp.length) {c : Nat} {first : Bool} {l : List (Option Bytes × α)} {lo hi : Nat} :
    PutRows inp V P Q E fl K c first l lo hi → hi = E ∨ NL ∈ slice inp Q hi
  | .last _ _ _ h _ _ => h.line hl (Spot.item_ne _ _)
  | .head _ _ _ h h1 h2 => by
    have h3 := h2.lt_length
    have h4 := h2.le
    have h5 := h1.le
    refine .inr (nl_slice_le h4 ?_)
    rcases h.line hl (Spot.item_ne _ _) with h | h
    · subst h
      rcases hl _ h1 with h | h
      · exact h
      · omega
    · exact nl_slice_le h5.1 h
  | .tail _ _ _ _ _ h => h.line hl
end

end

/-- How a value starts. -/
theorem Token.starts {fl : Bool} {r s : Bytes} {a : AnyV} (h : Token fl r s a) (h0 : s.headD 0 ≠ 0) :
    isWs (s.headD 0) = false ∧ s.headD 0 ≠ HASH ∧ s.headD 0 ≠ PIPE ∧ s.headD 0 ≠ GT ∧ (fl = true → isCtl (s.headD 0) = false) := by
  cases s with
  | nil => exact absurd rfl h0
  | cons b s =>
    simp only [List.headD_cons] at h0 ⊢
    cases h with
    | number h1 _ =>
      have := isNumber_chars h1 b (List.mem_cons_self ..)
      exact ⟨number_ws this, fun h => by subst h; exact absurd this (by decide), fun h => by subst h; exact absurd this (by decide),
        fun h => by subst h; exact absurd this (by decide), fun _ => (numChar_ne this).2.2⟩
    | plain _ h2 =>
      unfold plainText at h2
      simp only [Bool.and_eq_true, Bool.not_eq_true', List.headD_cons] at h2
      obtain ⟨h2, h3⟩ := h2
      simp only [isIndicator, Bool.or_eq_false_iff, beq_eq_false_iff_ne] at h2
      refine ⟨h2.1.1.1.1.1.1.1, h2.1.1.1.1.1.1.2, h2.2, h2.1.2, fun hf => ?_⟩
      subst hf
      simp only [if_true, Bool.and_eq_true, Bool.not_eq_true', List.any_cons, Bool.or_eq_false_iff] at h3
      exact h3.1.1
    | quoted h1 _ _ =>
      have : b = SQ ∨ b = DQ := by
        generalize hs : b :: s = w at h1
        cases h1 with
        | single s =>
          unfold quoteSingle at hs
          simp only [List.cons_append] at hs
          exact .inl (List.cons.inj hs).1
        | double _ _ => exact .inr (List.cons.inj hs).1
      rcases this with rfl | rfl <;> refine ⟨by decide, by decide, by decide, by decide, fun _ => by decide⟩

/-- `t'` can be put in the place of `t`. -/
structure Hole (p t t' q : Bytes) (E : Nat) (fl : Bool) : Prop where
  ahead : Ahead p (t ++ q) (t' ++ q)
  nul : t'.headD 0 ≠ 0
  /-- In an inline collection, `t'` does not start with a block scalar or another sign. -/
  starts : fl = true → t'.headD 0 ≠ PIPE ∧ t'.headD 0 ≠ GT ∧ isCtl (t'.headD 0) = false
  /-- After the inline collection that the place is in, or after the place, there is nothing else on the line. -/
  line : ∀ g, FullGap (p ++ t ++ q) E g → NL ∈ slice (p ++ t ++ q) (p ++ t).length g ∨ g = (p ++ t ++ q).length
  /-- In an inline collection, `t` is not a block scalar. -/
  block : fl = true → atBlock (p ++ t ++ q) p.length = false
  /-- In an inline collection, the value before ends before the place. -/
  next : fl = true → ∀ {α : Type} {V : View α} {v : α} {lo hi : Nat}, Sits (p ++ t ++ q) V .flow v lo hi → hi ≠ p.length

namespace Hole
variable {p t t' q : Bytes} {E : Nat} {fl : Bool} (H : Hole p t t' q E fl)
include H

theorem head' : (t' ++ q).headD 0 = t'.headD 0 := by
  have := H.nul
  cases t' with
  | nil => exact absurd rfl this
  | cons b t' => rfl

theorem full {a b : Nat} (h : FullGap (p ++ t ++ q) a b) (hb : b ≤ p.length) : FullGap (p ++ t' ++ q) a b := by
  rw [List.append_assoc] at h ⊢
  exact H.ahead.full h hb

theorem rowHead {first : Bool} {k : Option Bytes} {lo a : Nat} (h : Head (p ++ t ++ q) first k lo a) (ha : a ≤ p.length) : Head (p ++ t' ++ q) first k lo a := by
  rw [List.append_assoc] at h ⊢
  exact H.ahead.head h ha

omit H in
theorem column {n : Nat} (h : n ≤ p.length) : columnAt (p ++ t' ++ q) n = columnAt (p ++ t ++ q) n := by
  rw [List.append_assoc, List.append_assoc]
  exact Joint.column h

omit H in
theorem get {n : Nat} (h : n < p.length) : (p ++ t' ++ q)[n]? = (p ++ t ++ q)[n]? := by
  rw [List.append_assoc, List.append_assoc]
  exact Joint.get h

omit H in
theorem getD {n : Nat} (h : n < p.length) : (p ++ t' ++ q).getD n 0 = (p ++ t ++ q).getD n 0 := by
  rw [List.append_assoc, List.append_assoc]
  exact Joint.getD h

theorem at' : (p ++ t' ++ q).getD p.length 0 = t'.headD 0 := by
  rw [List.append_assoc, Joint.at0, H.head']

omit H in
theorem cellHead {k : Option Bytes} {lo a : Nat} (h : CellHead (p ++ t ++ q) k lo a) (ha : a ≤ p.length) : CellHead (p ++ t' ++ q) k lo a := by
  rw [List.append_assoc] at h ⊢
  exact Joint.cellHead h ha

theorem opens (hf : fl = true) {m : Bool} {n : Nat} (h : Opens (p ++ t ++ q) m n) (hn : n ≤ p.length) : Opens (p ++ t' ++ q) m n := by
  unfold Opens at h ⊢
  rcases Nat.lt_or_ge n p.length with hlt | hge
  · rw [getD hlt]; exact h
  · rw [show n = p.length by omega, H.at']
    have := (H.starts hf).2.2
    simp only [isCtl, Bool.or_eq_false_iff, beq_eq_false_iff_ne] at this
    refine ⟨?_, H.nul⟩
    unfold close
    split
    · exact this.1.2
    · exact this.1.1.2

theorem atBlocks (hf : fl = true) {n : Nat} (hn : n ≤ p.length) : atBlock (p ++ t' ++ q) n = atBlock (p ++ t ++ q) n := by
  rcases Nat.lt_or_ge n p.length with hlt | hge
  · unfold atBlock; rw [getD hlt]
  · rw [show n = p.length by omega, H.block hf]
    unfold atBlock
    rw [H.at']
    have := H.starts hf
    rw [beq_eq_false_iff_ne.2 this.2.1, beq_eq_false_iff_ne.2 this.1]
    rfl

theorem before {α : Type} {V : View α} {s : Spot} {v : α} {lo hi g : Nat} (h : Sits (p ++ t ++ q) V s v lo hi) (hg : FullGap (p ++ t ++ q) hi g) (hh : hi < p.length)
    (hq : g ≤ p.length) (hs : s = .flow ∨ g < p.length) (hk : AfterColon (p ++ t ++ q) s lo) : Sits (p ++ t' ++ q) V s v lo hi := by
  rw [List.append_assoc] at h hg hk ⊢
  exact h.before H.ahead hg hh hq hs hk

theorem nextCell (hf : fl = true) {m blk : Bool} {e : Nat} {last : Bool} {start n : Nat} (he : e < p.length) (hn : n ≤ p.length)
    (h : NextCell (p ++ t ++ q) m blk e last start n) :
    (∃ g, FullGap (p ++ t ++ q) e g ∧ g ≤ p.length) ∧ NextCell (p ++ t' ++ q) m blk e last start n := by
  rw [List.append_assoc] at h ⊢
  rw [List.append_assoc p t' q]
  refine H.ahead.nextCell ?_ he hn h
  rw [H.head']
  have := (H.starts hf).2.2
  simp only [isCtl, Bool.or_eq_false_iff, beq_eq_false_iff_ne] at this
  exact this.1.1.1.1

omit H in
/-- On a later line. -/
theorem later {j : Nat} (h : NL ∈ slice (p ++ t ++ q) (p ++ t).length ((p ++ t).length + j)) : NL ∈ q.take j := by
  have := sh_slice (p ++ t) q 0 j
  rw [Nat.add_zero] at this
  rw [this] at h
  simpa only [slice, List.drop_zero, Nat.sub_zero] using h

end Hole

mutual
theorem PutCells.flow {α : Type} {inp : Bytes} {V : View α} {P Q E : Nat} {fl : Bool} {K : Spot → α → Prop} {m last : Bool} {l : List (Option Bytes × α)} {n hi : Nat} :
    PutCells inp V P Q E fl K m last l n hi → fl = true
  | .final _ _ _ h _ _ => h.flow rfl
  | .head _ _ _ h _ _ => h.flow rfl
  | .tail _ _ _ _ _ h => h.flow
theorem Put.flow {α : Type} {inp : Bytes} {V : View α} {P Q E : Nat} {fl : Bool} {K : Spot → α → Prop} {s : Spot} {x : α} {lo hi : Nat} :
    Put inp V P Q E fl K s x lo hi → s = .flow → fl = true
  | .here h _ _, hs => by rw [← h, hs]; rfl
  | .dashes _ h _, hs => absurd hs h
  | .keys _ h _, hs => absurd hs h.1
  | .brackets _ _ _ _ h, _ => h.flow
  | .braces _ _ _ _ h, _ => h.flow
end

/-- A value ends at `e`, or after the white space and comments from there. -/
def EndsBy (inp : Bytes) (s : Spot) (hi e : Nat) : Prop := hi = e ∨ FullGap inp e hi ∧ s ≠ .flow

theorem EndsBy.full {inp : Bytes} {s : Spot} {hi e q : Nat} (h : EndsBy inp s hi e) (hq : FullGap inp e q) : FullGap inp hi q := by
  rcases h with rfl | ⟨h, -⟩
  · exact hq
  · obtain rfl := h.unique hq
    exact ⟨Gap.refl hq.le.2, hq.2⟩

theorem EndsBy.flow {inp : Bytes} {hi e : Nat} (h : EndsBy inp .flow hi e) : hi = e := by
  rcases h with h | ⟨-, h⟩
  · exact h
  · exact absurd rfl h

mutual
theorem Put.sits {α : Type} {V : View α} {p t t' q : Bytes} {E : Nat} {fl : Bool} {K : Spot → α → Prop} (H : Hole p t t' q E fl) (hK : ∀ s x, s.inline = fl → K s x → ∃ hi, Sits (p ++ t' ++ q) V s x p.length hi ∧ EndsBy (p ++ t' ++ q) s hi (p ++ t').length) {s : Spot} {x : α} {lo hi' hi : Nat} :
    Put (p ++ t ++ q) V p.length (p ++ t).length E fl K s x lo hi' → hi' = (p ++ t).length + hi → ∃ hi2, Sits (p ++ t' ++ q) V s x lo hi2 ∧ EndsBy (p ++ t' ++ q) s hi2 ((p ++ t').length + hi)
  | .here h1 h2 h3, e => by
    obtain rfl : hi = 0 := by omega
    exact hK _ _ h1 h3
  | .dashes h1 h2 h3, e => by
    obtain ⟨hi2, h4, h6⟩ := h3.sits H hK e
    have h5 := h3.le
    rw [← Hole.column (t' := t') (by omega)] at h4
    exact ⟨hi2, .dashes h1 h2 h4, h6.imp id (⟨·, h2⟩)⟩
  | .keys h1 h2 h3, e => by
    obtain ⟨hi2, h4, h6⟩ := h3.sits H hK e
    have h5 := h3.le
    rw [← Hole.column (t' := t') (by omega)] at h4 h2
    exact ⟨hi2, .keys h1 h2 h4, h6.imp id (⟨·, h2.1⟩)⟩
  | .brackets (hi := j) h1 h2 h3 h4 h5, e => by
    have h7 := h5.le
    have h8 := h3.le
    have h6 := h5.sits H hK (hi := j - (p ++ t).length) (by omega)
    obtain ⟨j, rfl⟩ := Nat.exists_eq_add_of_le h7.2
    obtain rfl : hi = j + 1 := by omega
    rw [Nat.add_sub_cancel_left] at h6
    exact ⟨_, .brackets h1 (by rw [Hole.get (t := t) (by omega)]; exact h2) (H.full h3 (by omega)) h6, .inl rfl⟩
  | .braces (hi := j) h1 h2 h3 h4 h5, e => by
    have h7 := h5.le
    have h8 := h3.le
    have h6 := h5.sits H hK (hi := j - (p ++ t).length) (by omega)
    obtain ⟨j, rfl⟩ := Nat.exists_eq_add_of_le h7.2
    obtain rfl : hi = j + 1 := by omega
    rw [Nat.add_sub_cancel_left] at h6
    exact ⟨_, .braces h1 (by rw [Hole.get (t := t) (by omega)]; exact h2) (H.full h3 (by omega)) h6, .inl rfl⟩
theorem PutRows.sits {α : Type} {V : View α} {p t t' q : Bytes} {E : Nat} {fl : Bool} {K : Spot → α → Prop} (H : Hole p t t' q E fl) (hK : ∀ s x, s.inline = fl → K s x → ∃ hi, Sits (p ++ t' ++ q) V s x p.length hi ∧ EndsBy (p ++ t' ++ q) s hi (p ++ t').length) {c : Nat} {first : Bool}
    {l : List (Option Bytes × α)} {lo hi' hi : Nat} :
    PutRows (p ++ t ++ q) V p.length (p ++ t).length E fl K c first l lo hi' → hi' = (p ++ t).length + hi →
      ∃ hi2, Rows (p ++ t' ++ q) V c first l lo hi2 ∧ (hi2 = (p ++ t').length + hi ∨ FullGap (p ++ t' ++ q) ((p ++ t').length + hi) hi2)
  | .last (q := g) h1 h2 h3 h4 h5 h6, e => by
    have g1 := h2.lt
    have g2 := h3.le
    have g3 := h4.le
    have g4 := h5.le
    obtain ⟨hi2, h7, h10⟩ := h4.sits H hK e
    have h8 := h4.line H.line (Spot.item_ne _ _)
    obtain ⟨g, rfl⟩ := Nat.exists_eq_add_of_le (show (p ++ t).length ≤ g by omega)
    subst e
    refine ⟨hi2, .last (by rw [Hole.column (t := t) (by omega)]; exact h1) (H.rowHead h2 (by omega)) (H.full h3 (by omega)) h7 (h10.full (mv_full h5)) ?_, h10.imp id (·.1)⟩
    have h9 : NL ∈ slice (p ++ t ++ q) (p ++ t).length ((p ++ t).length + g) ∨ (p ++ t).length + g = (p ++ t ++ q).length := by
      rcases h8 with h8 | h8
      · rw [h8] at h5
        exact H.line _ h5
      · exact .inl (nl_slice_le (by omega) h8)
    rcases h9 with h9 | h9
    · rw [mv_goes (u := p ++ t) (Hole.later h9)]
      exact h6
    · rw [sh_len (p ++ t) q] at h9
      obtain rfl : g = q.length := by omega
      unfold Goes
      rw [sh_get, sh_getD, List.getElem?_eq_none (Nat.le_refl _), List.getD_eq_getElem?_getD, List.getElem?_eq_none (Nat.le_refl _)]
      split
      · rintro ⟨_, _, h⟩; exact h rfl
      · rintro ⟨_, h⟩; cases h
  | .head (e := e0) (lo' := g) h1 h2 h3 h4 h5 h6, e => by
    have g1 := h2.lt
    have g2 := h3.le
    have g3 := h4.le
    have g4 := h5.le
    have g5 := h6.lt_length
    obtain ⟨hi2, h7, h10⟩ := h4.sits H hK (hi := e0 - (p ++ t).length) (by omega)
    have h8 := h4.line H.line (Spot.item_ne _ _)
    obtain ⟨g, rfl⟩ := Nat.exists_eq_add_of_le (show (p ++ t).length ≤ g by omega)
    obtain ⟨e0, rfl⟩ := Nat.exists_eq_add_of_le (show (p ++ t).length ≤ e0 by omega)
    rw [Nat.add_sub_cancel_left] at h10
    have h9 : NL ∈ slice (p ++ t ++ q) (p ++ t).length ((p ++ t).length + g) := by
      rcases h8 with h8 | h8
      · rw [h8] at h5
        rcases H.line _ h5 with h | h
        · exact h
        · omega
      · exact nl_slice_le (by omega) h8
    exact ⟨_, .more (by rw [Hole.column (t := t) (by omega)]; exact h1) (H.rowHead h2 (by omega)) (H.full h3 (by omega)) h7 (h10.full (mv_full h5)) (h6.moved rfl e (Hole.later h9)), .inl rfl⟩
  | .tail h1 h2 h3 h4 h5 h6, e => by
    have g1 := h2.lt
    have g2 := h3.le
    have g3 := h4.le
    have g4 := h5.le
    have g5 := h6.le
    obtain ⟨hi2, h7, h8⟩ := h6.sits H hK e
    refine ⟨hi2, ?_, h8⟩
    exact .more (by rw [Hole.column (t := t) (by omega)]; exact h1) (H.rowHead h2 (by omega)) (H.full h3 (by omega)) (H.before h4 h5 (by omega) (by omega) (.inr (by omega)) (.item h2 h3))
      (H.full h5 (by omega)) h7
theorem PutCells.sits {α : Type} {V : View α} {p t t' q : Bytes} {E : Nat} {fl : Bool} {K : Spot → α → Prop} (H : Hole p t t' q E fl) (hK : ∀ s x, s.inline = fl → K s x → ∃ hi, Sits (p ++ t' ++ q) V s x p.length hi ∧ EndsBy (p ++ t' ++ q) s hi (p ++ t').length) {m last : Bool}
    {l : List (Option Bytes × α)} {lo hi' hi : Nat} :
    PutCells (p ++ t ++ q) V p.length (p ++ t).length E fl K m last l lo hi' → hi' = (p ++ t).length + hi →
      Cells (p ++ t' ++ q) V m last l lo ((p ++ t').length + hi)
  | .final (e := e0) h1 h2 h3 h4 h5 h6, e => by
    have g1 := h2.le
    have g2 := h3.le
    have g3 := h4.le
    have g4 := h5.le
    have hf := h4.flow rfl
    obtain ⟨hi2, h7, h11⟩ := h4.sits H hK (hi := e0 - (p ++ t).length) (by omega)
    rw [h11.flow] at h7
    obtain ⟨e0, rfl⟩ := Nat.exists_eq_add_of_le (show (p ++ t).length ≤ e0 by omega)
    rw [Nat.add_sub_cancel_left] at h7
    subst e
    exact .final (H.opens hf h1 (by omega)) (Hole.cellHead h2 (by omega)) (H.full h3 (by omega)) h7 (mv_full h5) (by rw [sh_get] at h6 ⊢; exact h6)
  | .head (e := e0) (n' := g) h1 h2 h3 h4 h5 h6, e => by
    have g1 := h2.le
    have g2 := h3.le
    have g3 := h4.le
    have g4 := h5.le
    have g5 := h6.le
    have hf := h4.flow rfl
    obtain ⟨hi2, h7, h11⟩ := h4.sits H hK (hi := e0 - (p ++ t).length) (by omega)
    rw [h11.flow] at h7
    obtain ⟨g, rfl⟩ := Nat.exists_eq_add_of_le (show (p ++ t).length ≤ g by omega)
    obtain ⟨e0, rfl⟩ := Nat.exists_eq_add_of_le (show (p ++ t).length ≤ e0 by omega)
    rw [Nat.add_sub_cancel_left] at h7
    obtain ⟨start', h8⟩ := mv_nextCell (u' := p ++ t') h5
    rw [← H.atBlocks hf (by omega)] at h8
    exact .cell (H.opens hf h1 (by omega)) (Hole.cellHead h2 (by omega)) (H.full h3 (by omega)) h7 h8 (h6.moved rfl e)
  | .tail h1 h2 h3 h4 h5 h6, e => by
    have g1 := h2.le
    have g2 := h3.le
    have g3 := h4.le
    have g4 := h5.le
    have g5 := h6.le
    have hf := h6.flow
    have hne := H.next hf h4
    obtain ⟨⟨g, h7, h8⟩, h9⟩ := H.nextCell hf (by omega) (by omega) h5
    have h10 := h6.sits H hK e
    rw [← H.atBlocks hf (by omega)] at h9
    exact .cell (H.opens hf h1 (by omega)) (Hole.cellHead h2 (by omega)) (H.full h3 (by omega)) (H.before h4 h7 (by omega) h8 (.inl rfl) .flow) h9 h10
end

end Verif
