import Verif.Props.KeyLines
import Verif.PutInner
/-
A text with another one after it that is not blank.  Used in proofs only; nothing here is part of the Rust code.
-/
namespace Verif

theorem blankGo_init : ∀ {c : Bool} {a b : Bytes}, blankGo c (a ++ b) = true → blankGo c a = true
  | _, [], _, _ => by unfold blankGo; rfl
  | true, x :: a, b, h => by
    rw [List.cons_append, blankGo] at h
    rw [blankGo]
    exact blankGo_init h
  | false, x :: a, b, h => by
    rw [List.cons_append, blankGo] at h
    rw [blankGo]
    by_cases hb : (x == HASH) = true
    · rw [if_pos hb] at h ⊢; exact blankGo_init h
    · rw [if_neg hb, Bool.and_eq_true] at h ⊢
      exact ⟨h.1, blankGo_init h.2⟩

/-- The white space at the end of a text is there too if something follows. -/
theorem fullGap_then {x t : Bytes} {a : Nat} (hx : x.getLast? = some NL) (ha : a < x.length) (h : FullGap x a x.length) (ht : stopWs t) : FullGap (x ++ t) a x.length := by
  obtain ⟨⟨h1, h2, h3⟩, -, -⟩ := h
  have hs : slice (x ++ t) a x.length = slice x a x.length := append_slice (Nat.le_refl _)
  have hg : gap (slice x a x.length) = true := by
    rcases h3 with h3 | ⟨-, h3⟩
    · exact h3
    · have hl : (slice x a x.length).getLast? = some NL := by
        rw [slice, List.take_of_length_le (by simp)]
        exact getLast?_drop_of hx ha
      obtain ⟨w, hw⟩ := List.getLast?_eq_some_iff.1 hl
      rw [hw] at h3 ⊢
      exact blank_gap (blankGo_init h3)
  have hd : (x ++ t).getD x.length 0 = hd t := by
    rw [List.getD_eq_getElem?_getD, List.getElem?_append_right (Nat.le_refl _), Nat.sub_self]
    cases t <;> rfl
  exact ⟨⟨h1, by simp, .inl (by rw [hs]; exact hg)⟩, by rw [hd]; exact ht.1, by rw [hd]; exact ht.2⟩

mutual
/-- What is in an inline collection, with another text after it. -/
theorem Sits.innerF {α : Type} {x y y' : Bytes} {V : View α} {s : Spot} {v : α} {lo hi q : Nat} :
    Sits (x ++ y) V s v lo hi → s = .flow → FullGap (x ++ y) hi q → q < x.length → Sits (x ++ y') V s v lo hi
  | .scalar h1 h2 h3 h4, hs, hg, hq => by
    have := hg.le
    exact .scalar h1 h2 (Nat.le_of_lt (Inner.len (by omega) _)) (Inner.token hg hq h4)
  | .lines h1 h2, hs, hg, hq => .lines h1 (Inner.block h2 hg hq)
  | .open h1 h2 h3 h4, hs, hg, hq => by
    have := hg.le
    have := Inner.len hq y
    omega
  | .empty h1 h2 h3, hs, hg, hq => by cases hs
  | .dashes h1 h2 h3, hs, hg, hq => absurd hs h2
  | .keys h1 h2 h3, hs, hg, hq => absurd hs h2.1
  | .brackets h1 h2 h3 h4, hs, hg, hq => by
    have h5 := h4.le
    have h6 := hg.le
    have h7 := h3.le
    exact .brackets h1 (by rw [Joint.get (by omega)]; exact h2) (Inner.full h3 (by omega)) (h4.innerF (by omega))
  | .braces h1 h2 h3 h4, hs, hg, hq => by
    have h5 := h4.le
    have h6 := hg.le
    have h7 := h3.le
    exact .braces h1 (by rw [Joint.get (by omega)]; exact h2) (Inner.full h3 (by omega)) (h4.innerF (by omega))
theorem Cells.innerF {α : Type} {x y y' : Bytes} {V : View α} {m last : Bool} {l : List (Option Bytes × α)} {n hi : Nat} :
    Cells (x ++ y) V m last l n hi → hi < x.length → Cells (x ++ y') V m last l n hi
  | .none h, hq => .none (by rw [Joint.get hq]; exact h)
  | .final h1 h2 h3 h4 h5 h6, hq => by
    have h7 := h4.le
    have h8 := h3.le
    have h9 := h2.le
    have h10 := h5.le
    exact .final (by unfold Opens; rw [Joint.getD (by omega)]; exact h1) (Joint.cellHead h2 (by omega)) (Inner.full h3 (by omega)) (h4.innerF rfl h5 (by omega))
      (Inner.full h5 (by omega)) (by rw [Joint.get hq]; exact h6)
  | .cell (start := start) h1 h2 h3 h4 h5 h6, hq => by
    have h7 := h4.le
    have h8 := h3.le
    have h9 := h2.le
    have h10 := h6.le
    obtain ⟨⟨q, h11, h12⟩, h13⟩ := Inner.nextCell (y' := y') (by omega) h5
    have h14 := h11.le
    refine .cell (by unfold Opens; rw [Joint.getD (by omega)]; exact h1) (Joint.cellHead h2 (by omega)) (Inner.full h3 (by omega)) (h4.innerF rfl h11 (by omega))
      (?_ : NextCell _ _ _ _ _ start _) (h6.innerF hq)
    unfold atBlock at h13 ⊢
    rw [Joint.getD (by omega)]
    exact h13
end

/-- An item of a block collection does not start with a bracket. -/
theorem Head.notBracket {x : Bytes} {k : Option Bytes} {lo a : Nat} (h : Head x true k lo a) : x.getD lo 0 ≠ LBR ∧ x.getD lo 0 ≠ LCB := by
  cases k with
  | none =>
    have h1 := h.1
    rw [List.getD_eq_getElem?_getD, h1]
    decide
  | some k =>
    obtain ⟨q, -, h1⟩ := h
    rw [if_pos rfl] at h1
    obtain ⟨h1, h2, h3 | ⟨-, h3, -⟩⟩ := h1
    · have h4 : x.getD lo 0 = (slice x lo q).headD 0 := by
        have h5 : lo < q := by
          rcases Nat.lt_or_ge lo q with h | h
          · exact h
          · rw [slice, show q - lo = 0 by omega, List.take_zero] at h3
            exact absurd rfl h3.ends.1
        rw [slice, List.getD_eq_getElem?_getD, List.headD_eq_head?_getD, List.head?_take, if_neg (by omega), List.head?_drop]
      rw [h4]
      generalize slice x lo q = w at h3
      cases h3 <;> simp [quoteSingle] <;> decide
    · constructor <;> intro h <;> rw [h] at h3 <;> exact absurd h3 (by decide)

/-- Double quotes that are not closed: the line break at the end is in the string. -/
theorem reads_last {ps : List Piece} (h : ps.all Piece.known = true) (hl : (ps.flatMap Piece.text).getLast? = some NL) : (ps.flatMap Piece.reads).getLast? = some NL := by
  rcases List.eq_nil_or_concat ps with rfl | ⟨qs, p, rfl⟩
  · cases hl
  · rw [List.concat_eq_append, List.all_append, Bool.and_eq_true] at h
    rw [List.concat_eq_append, List.flatMap_append] at hl ⊢
    have hp : p.known = true := by simpa using h.2
    have hl : p.text.getLast? = some NL := by
      have : p.text ≠ [] := by cases p <;> simp [Piece.text]
      rw [List.getLast?_append] at hl
      simp only [List.flatMap_cons, List.flatMap_nil, List.append_nil] at hl
      obtain ⟨z, hz⟩ := Option.isSome_iff_exists.1 (List.getLast?_isSome.2 this)
      rw [hz] at hl ⊢
      simpa using hl
    have hr : p.reads = [NL] := by
      cases p with
      | byte b => simp [Piece.text] at hl; subst hl; rfl
      | esc c => simp [Piece.text] at hl; subst hl; exact absurd hp (by decide)
      | hex a b =>
        simp [Piece.text] at hl
        subst hl
        have hn : number16 [a, NL] = none := by
          have : digit16 NL = none := by decide
          cases ha : digit16 a <;> simp [number16, ha, this]
        simp [Piece.known, Piece.ok, charOf, hn] at hp
      | uni a b c d =>
        simp [Piece.text] at hl
        subst hl
        have hn : number16 [a, b, c, NL] = none := by
          have : digit16 NL = none := by decide
          cases ha : digit16 a <;> cases hb : digit16 b <;> cases hc : digit16 c <;> simp [number16, ha, hb, hc, this]
        simp [Piece.known, Piece.ok, charOf, hn] at hp
    simp [hr]

/-- A value that ends before the text does, and is neither a block collection nor a block scalar. -/
theorem Sits.then {x t : Bytes} {V : View Content} {v : Content} {lo hi : Nat} (hx : x.getLast? = some NL) (hlo : lo < x.length) (h : Sits x V .block v lo hi)
    (hk : (x.getD lo 0 = LBR ∨ x.getD lo 0 = LCB) ∨ ((∀ l, ¬ V.seq v l) ∧ (∀ l, ¬ V.map v l)) ∧ (x.getD lo 0 = DQ → ∀ w, V.scalar v (.string w) → w.getLast? ≠ some NL) ∧ x.getD lo 0 ≠ PIPE ∧ x.getD lo 0 ≠ GT)
    (hh : hi ≤ x.length) : hi < x.length ∧ Sits (x ++ t) V .block v lo hi := by
  have T : Tail x [] := ⟨hx, rfl, .inl rfl⟩
  have close_lt : ∀ {m : Bool} {p : Nat}, x[p]? = some (close m) → p + 1 < x.length := fun {m p} h => T.next h (by cases m <;> decide)
  cases h with
  | scalar h1 h2 h3 h4 =>
    have hlt : hi < x.length := by
      rcases Nat.lt_or_ge hi x.length with h | h
      · exact h
      · obtain rfl : hi = x.length := by omega
        have := T.tokenEnd h4
        omega
    refine ⟨hlt, .scalar h1 h2 (by simp; omega) ?_⟩
    rw [append_slice (by omega), List.drop_append_of_le_length (by omega)]
    exact Tail.token (T.mem_drop hlt) h4
  | lines h1 h2 =>
    exfalso
    obtain ⟨fo, ch, h, n, w, g1, g2, g3, -⟩ := h2
    have h4 : x.getD lo 0 = (slice x lo h).headD 0 := by
      rw [slice, List.getD_eq_getElem?_getD, List.headD_eq_head?_getD, List.head?_take, if_neg (by omega), List.head?_drop]
    rw [g3] at h4
    rw [h4] at hk
    cases fo <;> simp at hk <;> revert hk <;> decide
  | «open» h1 h2 h3 h4 =>
    exfalso
    have h5 : x.getD lo 0 = DQ := by
      rw [List.getD_eq_getElem?_getD, ← List.head?_drop, h4]; rfl
    rcases hk with hk | ⟨-, hk, -⟩
    · rw [h5] at hk; exact absurd hk (by decide)
    · refine hk h5 _ h1 (reads_last h3 ?_)
      have h6 := getLast?_drop_of hx hlo
      rw [h4] at h6
      rename_i ps
      cases hp : ps.flatMap Piece.text with
      | nil => rw [hp] at h6; exact absurd h6 (by decide)
      | cons b r => rw [hp, List.getLast?_cons_cons] at h6; exact h6
  | dashes h1 h2 h3 =>
    obtain ⟨k, a, hd⟩ := h3.start
    have := hd.notBracket
    rcases hk with (hk | hk) | ⟨⟨hk, -⟩, -⟩
    · exact absurd hk this.1
    · exact absurd hk this.2
    · exact absurd h1 (hk _)
  | keys h1 h2 h3 =>
    obtain ⟨k, a, hd⟩ := h3.start
    have := hd.notBracket
    rcases hk with (hk | hk) | ⟨⟨-, hk⟩, -⟩
    · exact absurd hk this.1
    · exact absurd hk this.2
    · exact absurd h1 (hk _)
  | brackets h1 h2 h3 h4 =>
    have h5 := close_lt h4.closes
    have h6 := h4.le
    refine ⟨h5, ?_⟩
    rw [← List.append_nil x] at h2 h3 h4
    exact .brackets h1 (by rw [Joint.get hlo] ; exact h2) (Inner.full h3 (by omega)) (h4.innerF (by omega))
  | braces h1 h2 h3 h4 =>
    have h5 := close_lt h4.closes
    have h6 := h4.le
    refine ⟨h5, ?_⟩
    rw [← List.append_nil x] at h2 h3 h4
    exact .braces h1 (by rw [Joint.get hlo] ; exact h2) (Inner.full h3 (by omega)) (h4.innerF (by omega))

theorem skipBlank_thenGo (t : Bytes) : ∀ {c : Bool} {r : Bytes}, skipBlank c r ≠ [] → skipBlank c (r ++ t) = skipBlank c r ++ t
  | _, [], h => absurd (by unfold skipBlank; rfl) h
  | true, b :: r, h => by
    rw [skipBlank] at h
    rw [List.cons_append, skipBlank, skipBlank]
    exact skipBlank_thenGo t h
  | false, b :: r, h => by
    rw [skipBlank] at h
    rw [List.cons_append, skipBlank, skipBlank]
    by_cases hb : (b == HASH) = true
    · rw [if_pos hb] at h ⊢
      rw [if_pos hb]
      exact skipBlank_thenGo t h
    · rw [if_neg hb] at h ⊢
      rw [if_neg hb]
      by_cases hw : isWs b = true
      · rw [if_pos hw] at h ⊢
        rw [if_pos hw]
        exact skipBlank_thenGo t h
      · rw [if_neg hw, if_neg hw]
        rfl

theorem skipBlank_then {r : Bytes} (t : Bytes) (h : skipBlank false r ≠ []) : skipBlank false (r ++ t) = skipBlank false r ++ t := skipBlank_thenGo t h

theorem bodyGo_then (t : Bytes) : ∀ (f : Nat) {r : Bytes}, r.getLast? = some NL → skipBlank false (bodyGo f r) ≠ [] → bodyGo f (r ++ t) = bodyGo f r ++ t
  | 0, r, hr, _ => rfl
  | f + 1, r, hr, hne => by
    have hs : skipBlank false r <:+ r := by rw [skipBlank_eq]; exact List.drop_suffix _ _
    rw [bodyGo] at hne ⊢
    rw [bodyGo]
    by_cases hq : skipBlank false r = []
    · exfalso
      refine hne ?_
      rw [hq]
      have : ((0 : UInt8) == PCT) = false := by decide
      simp [this, hq]
    rw [skipBlank_then t hq]
    generalize skipBlank false r = q at hs hq hne
    have hl := getLast?_suffix hr hs hq
    have hm : NL ∈ q := List.mem_of_getLast? hl
    have hh : (q ++ t).headD 0 = q.headD 0 := by cases q with | nil => exact absurd rfl hq | cons b q => rfl
    simp only [hh] at hne ⊢
    split
    · next hp =>
      rw [if_pos hp] at hne
      have hd : ∀ q : Bytes, NL ∈ q → q.dropWhile (· != NL) ≠ [] ∧ (q ++ t).dropWhile (· != NL) = q.dropWhile (· != NL) ++ t := by
        intro q
        induction q with
        | nil => intro h; cases h
        | cons b q ih =>
          intro h
          by_cases hbn : b = NL
          · subst hbn; exact ⟨by simp, rfl⟩
          · have hbn' : (b != NL) = true := by simpa using hbn
            rw [List.cons_append, List.dropWhile_cons, List.dropWhile_cons, if_pos hbn', if_pos hbn']
            exact ih (by rcases List.mem_cons.1 h with h | h; exact absurd h.symm hbn; exact h)
      obtain ⟨hd1, hd2⟩ := hd q hm
      rw [hd2]
      exact bodyGo_then t f (getLast?_suffix hl (List.dropWhile_suffix _) hd1) hne
    · by_cases h3 : 3 ≤ q.length
      · rw [List.take_append_of_le_length h3]
        split
        · rw [List.drop_append_of_le_length h3]
        · rfl
      · have h4 : (q.take 3 == [DASH, DASH, DASH]) = false := by
          rw [beq_eq_false_iff_ne]
          intro h
          have := congrArg List.length h
          simp at this
          omega
        have h5 : ((q ++ t).take 3 == [DASH, DASH, DASH]) = false := by
          rw [beq_eq_false_iff_ne]
          intro h
          have h6 : NL ∈ (q ++ t).take 3 := by
            rw [List.take_append, List.take_of_length_le (by omega)]
            exact List.mem_append_left _ hm
          rw [h] at h6
          exact absurd h6 (by decide)
        rw [h4, h5]
        rfl

theorem body_then {x : Bytes} (t : Bytes) (hx : x.getLast? = some NL) (h : skipBlank false (body x) ≠ []) : skipBlank false (body (x ++ t)) = skipBlank false (body x) ++ t := by
  unfold body at h ⊢
  rw [← bodyGo_more ((x ++ t).length + 1) (x.length + 1) x (by rw [List.length_append]; omega) (by omega)] at h ⊢
  rw [bodyGo_then t _ hx h, skipBlank_then t h]

end Verif
