import Verif.PutBefore
/-
Another text after the first part of a text: the values in the first part are where they were, if something else than white space follows them in the first part.
-/
namespace Verif

/-- After `x` comes `y`, or `y'` instead: after a colon, what could be taken for a key before still can be. -/
def KeysStay (x y y' : Bytes) : Prop :=
  ∀ a k lo q, (x ++ y)[a]? = some COLON → FullGap (x ++ y) (a + 1) lo → lo < x.length → FirstKey (x ++ y) k lo q → ∃ k' q', FirstKey (x ++ y') k' lo q'

namespace Inner

variable {x y y' : Bytes}

theorem full {a b : Nat} (h : FullGap (x ++ y) a b) (hb : b < x.length) : FullGap (x ++ y') a b := by
  obtain ⟨⟨h1, h2, h3⟩, h4⟩ := h
  refine ⟨⟨h1, by rw [List.length_append]; omega, .inl ?_⟩, ?_⟩
  · rw [Joint.slice (Nat.le_of_lt hb)]
    rcases h3 with h3 | h3
    · exact h3
    · rw [List.length_append] at h3; omega
  · rw [Joint.getD hb]; exact h4

/-! ### Scalars -/

/-- Where neither white space nor a comment goes on, the line has ended before or does not end. -/
theorem lineEnds {r y : Bytes} (y' : Bytes) {j : Nat} (hj : j < r.length) (hw : isWs (r.getD j 0) = false) : lineEnds (r ++ y') = lineEnds (r ++ y) := by
  induction r generalizing j with
  | nil => simp at hj
  | cons b r ih =>
    by_cases hb : isOtherWs b = true
    · cases j with
      | zero =>
        have hw' : isWs b = false := hw
        unfold isWs at hw'
        rw [hb] at hw'
        cases hw'
      | succ j =>
        have := ih (j := j) (by simp at hj; omega) hw
        simpa only [Verif.lineEnds, List.cons_append, List.dropWhile_cons, hb, if_true] using this
    · simp only [Verif.lineEnds, List.cons_append, List.dropWhile_cons, hb, if_false, List.headD_cons, Bool.false_eq_true]

theorem token {fl : Bool} {lo hi q : Nat} {a : AnyV} (hg : FullGap (x ++ y) hi q) (hq : q < x.length) (h : Token fl ((x ++ y).drop hi) (slice (x ++ y) lo hi) a) :
    Token fl ((x ++ y').drop hi) (slice (x ++ y') lo hi) a := by
  have hl := hg.le
  have hhi : hi < x.length := by omega
  rw [List.drop_append_of_le_length (Nat.le_of_lt hhi), append_slice (Nat.le_of_lt hhi)] at h ⊢
  have hj : q - hi < (x.drop hi).length := by rw [List.length_drop]; omega
  have hws : isWs ((x.drop hi).getD (q - hi) 0) = false := by
    rw [List.getD_eq_getElem?_getD, List.getElem?_drop, show hi + (q - hi) = q by omega, ← List.getElem?_append_left (l₂ := y) hq, ← List.getD_eq_getElem?_getD]
    exact hg.2.1
  have hr : x.drop hi ≠ [] := by
    intro h
    rw [h] at hj
    simp at hj
  generalize x.drop hi = r at h hr hj hws
  generalize slice x lo hi = s at h
  have h0 : ∀ (y' : Bytes) d, (r ++ y').headD d = r.headD d := fun y' d => by
    cases r with
    | nil => exact absurd rfl hr
    | cons b r => rfl
  cases h with
  | number h1 h2 =>
    refine .number h1 ?_
    cases fl with
    | true => rw [if_pos rfl, h0] at h2 ⊢; exact h2
    | false =>
      rw [if_neg (by decide)] at h2 ⊢
      rw [lineEnds (y := y) y' hj hws]; exact h2
  | plain h1 h2 =>
    refine .plain h1 ?_
    unfold plainText at h2 ⊢
    rw [h0, h0] at h2 ⊢
    cases fl with
    | true => exact h2
    | false =>
      rw [if_neg (by decide)] at h2 ⊢
      have hm : NL ∈ r := by
        cases r with
        | nil => exact absurd rfl hr
        | cons b r =>
          simp only [Bool.and_eq_true, List.headD_cons, beq_iff_eq] at h2
          rw [h2.2.1.2]
          exact List.mem_cons_self ..
      rw [Tail.dashes_after hm] at h2 ⊢
      exact h2
  | quoted h1 h2 h3 => exact .quoted h1 (by rw [h0] at h2 ⊢; exact h2) (by rw [h0] at h3 ⊢; exact h3)

/-! ### Block scalars -/

theorem line {a b : Nat} (h : LineAt (x ++ y) a b) (hb : b < x.length) : LineAt (x ++ y') a b := by
  obtain ⟨h1, h2, h3⟩ := h
  refine ⟨h1, by rw [Joint.slice (Nat.le_of_lt hb)]; exact h2, .inr ?_⟩
  rcases h3 with h3 | h3
  · rw [List.length_append] at h3; omega
  · rw [Joint.get hb]; exact h3

theorem len {n : Nat} (h : n < x.length) (y : Bytes) : n < (x ++ y).length := by rw [List.length_append]; omega

theorem rows {fo : Bool} {c p : Nat} {v : Bytes} {hi n q : Nat} (h : BlockRows (x ++ y) fo c p v hi n) (hg : FullGap (x ++ y) hi q) (hq : q < x.length) :
    BlockRows (x ++ y') fo c p v hi n := by
  induction h with
  | last h1 h2 h3 h4 h5 =>
    obtain rfl := h4.unique hg
    have hl := h4.le
    have := h2.1
    rw [← Joint.breaks (t' := y') (Nat.le_of_lt hq)]
    exact .last (len (by omega) _) (line h2 (by omega)) (by rw [Joint.slice (by omega)]; exact h3) (full h4 hq) (by rw [Joint.column (by omega)]; exact h5)
  | final h1 h2 h3 h4 h5 =>
    have := h4.unique hg
    have := len hq y
    omega
  | more h1 h2 h3 h4 h5 h6 ih =>
    have hl := h4.le
    have := h2.1
    have := h6.le
    have := hg.le
    rw [← Joint.breaks (t' := y') (by omega)]
    exact .more (len (by omega) _) (line h2 (by omega)) (by rw [Joint.slice (by omega)]; exact h3) (full h4 (by omega)) (by rw [Joint.column (by omega)]; exact h5) (ih hg)

theorem blockBody {fo : Bool} {h : Nat} {v : Bytes} {hi n q : Nat} (hb : BlockBody (x ++ y) fo h v hi n) (hg : FullGap (x ++ y) hi q) (hq : q < x.length) :
    BlockBody (x ++ y') fo h v hi n := by
  have hl := hg.le
  have hlt := len hq y
  cases hb with
  | below h1 h2 h3 =>
    have := h3.le
    have h4 := rows (y' := y') h3 hg hq
    rw [← Joint.column (t' := y') (by omega)] at h4
    exact .below (full h1 (by omega)) (by rw [Joint.breaks (by omega)]; exact h2) h4
  | nothing h1 h2 =>
    have := h1.unique hg
    omega
  | beside h1 h2 h3 h4 h5 =>
    have := h5.unique hg
    omega
  | @both q' e p _ _ _ _ h1 h2 h3 h4 h5 h6 =>
    have := h6.le
    have h7 := h5.le
    have h8 := rows (y' := y') h6 hg hq
    rw [← Joint.column (t' := y') (by omega)] at h8
    have hq' : q' ≤ e := by
      rcases Nat.lt_or_ge e q' with h9 | h9
      · exfalso
        have := Swap.lineNl (by omega) h3 h9
        have h10 := h3.1
        have h12 : breaksIn (x ++ y) e q' ≤ breaksIn (x ++ y) h q' := by
          unfold breaksIn
          rw [← slice_append h10 (Nat.le_of_lt h9), List.count_append]
          omega
        omega
      · exact h9
    exact .both (full h1 (by omega)) (by rw [Joint.breaks (by omega)]; exact h2) (line h3 (by omega)) (by rw [Joint.slice (by omega)]; exact h4) (full h5 (by omega)) h8

theorem block {lo : Nat} {v : Bytes} {hi q : Nat} (h : BlockAt (x ++ y) lo v hi) (hg : FullGap (x ++ y) hi q) (hq : q < x.length) :
    BlockAt (x ++ y') lo v hi := by
  obtain ⟨fo, ch, h, n, w, h1, h2, h3, h4, h5, rfl⟩ := h
  have h6 := h5.le
  have := hg.le
  exact ⟨fo, ch, h, n, w, h1, Nat.le_of_lt (len (by omega) _), by rw [Joint.slice (by omega)]; exact h3, by rw [Joint.getD (by omega)]; exact h4, blockBody h5 hg hq, rfl⟩

/-! ### Keys -/

theorem keyEnd {p : Nat} (hp : p + 1 < x.length) : KeyEnd (x ++ y') p ↔ KeyEnd (x ++ y) p := by
  unfold KeyEnd
  rw [Joint.get (by omega), Joint.getD hp]

theorem firstKey {k : Bytes} {lo q : Nat} (h : FirstKey (x ++ y) k lo q) (hq : q < x.length) (hq' : q + 1 < x.length ∨ isWs (y'.headD 0) = true) : FirstKey (x ++ y') k lo q := by
  obtain ⟨h1, h2, h3⟩ := h
  refine ⟨h1, by rw [Joint.get hq]; exact h2, ?_⟩
  rw [Joint.slice (by omega), Joint.getD (by omega)]
  rcases h3 with h3 | ⟨h3, h4, h5, h6, h7, h8⟩
  · exact .inl h3
  · refine .inr ⟨h3, h4, ?_, h6, ?_, fun p hp1 hp2 => by rw [keyEnd (by omega)]; exact h8 p hp1 hp2⟩
    · have hd : ∀ z : Bytes, dashes ((x ++ z).drop lo) = ((x ++ z).getD lo 0 == DASH && isWs ((x ++ z).getD (lo + 1) 0)) := fun z => by
        unfold dashes
        rw [List.getD_eq_getElem?_getD, List.getD_eq_getElem?_getD, ← List.head?_drop, List.headD_eq_head?_getD, List.tail_drop, List.headD_eq_head?_getD, List.head?_drop, List.head?_drop]
      rw [hd] at h5 ⊢
      rw [Joint.getD (by omega)]
      rcases Nat.lt_or_ge (lo + 1) x.length with h | h
      · rw [Joint.getD h]; exact h5
      · rw [show q = lo by omega] at h2
        have : (x ++ y).getD lo 0 = COLON := by rw [List.getD_eq_getElem?_getD, h2]; rfl
        rw [this]
        rfl
    · rcases Nat.lt_or_ge (q + 1) x.length with hlt | hge
      · rw [keyEnd hlt]; exact h7
      · refine ⟨by rw [Joint.get hq]; exact h2, .inl ?_⟩
        rw [show q + 1 = x.length by omega, Joint.at0]
        exact hq'.resolve_left (by omega)

theorem head' {first : Bool} {k : Option Bytes} {lo a : Nat} (h : Head (x ++ y) first k lo a) (ha : a ≤ x.length) (hw : isWs (y'.headD 0) = true) : Head (x ++ y') first k lo a := by
  cases k with
  | none =>
    obtain ⟨h1, h2, rfl⟩ := h
    refine ⟨by rw [Joint.get (by omega)]; exact h1, fun hf => ?_, rfl⟩
    rcases Nat.lt_or_ge (lo + 1) x.length with h | h
    · rw [Joint.getD h]; exact h2 hf
    · rw [show lo + 1 = x.length by omega, Joint.at0]; exact hw
  | some k =>
    obtain ⟨q, rfl, h⟩ := h
    cases first with
    | true => exact ⟨q, rfl, firstKey h (by omega) (.inr hw)⟩
    | false =>
      obtain ⟨h1, h2, h3, h4⟩ := h
      exact ⟨q, rfl, h1, by rw [Joint.get (by omega)]; exact h2, by rw [Joint.slice (by omega)]; exact h3, h4⟩

theorem head {first : Bool} {k : Option Bytes} {lo a : Nat} (h : Head (x ++ y) first k lo a) (ha : a < x.length) : Head (x ++ y') first k lo a := by
  cases k with
  | none =>
    obtain ⟨h1, h2, rfl⟩ := h
    exact ⟨by rw [Joint.get (by omega)]; exact h1, fun hf => by rw [Joint.getD ha]; exact h2 hf, rfl⟩
  | some k =>
    obtain ⟨q, rfl, h⟩ := h
    cases first with
    | true => exact ⟨q, rfl, firstKey h (by omega) (.inl ha)⟩
    | false =>
      obtain ⟨h1, h2, h3, h4⟩ := h
      exact ⟨q, rfl, h1, by rw [Joint.get (by omega)]; exact h2, by rw [Joint.slice (by omega)]; exact h3, h4⟩

/-- The next item starts before `y`. -/
theorem nextCell {m blk : Bool} {e : Nat} {last : Bool} {start n : Nat} (hn : n < x.length) (h : NextCell (x ++ y) m blk e last start n) :
    (∃ q, FullGap (x ++ y) e q ∧ q < x.length) ∧ NextCell (x ++ y') m blk e last start n := by
  have he := h.le
  obtain ⟨c, h1, h2⟩ := h
  rcases h2 with ⟨h2, h3, h4⟩ | ⟨h2, h3, h4, h5⟩
  · have hcn : c < n := by
      split at h4
      · omega
      · have := h4.2.le; omega
    refine ⟨⟨c, ?_, by omega⟩, c, ?_, .inl ⟨h2, by rw [Joint.get (by omega)]; exact h3, ?_⟩⟩
    · split at h1
      · exact h1
      · subst h1
        have hl := (List.getElem?_eq_some_iff.1 h3).1
        have hg : (x ++ y).getD c 0 = COMMA := by rw [List.getD_eq_getElem?_getD, h3]; rfl
        exact ⟨Gap.refl (by omega), by rw [hg]; decide, by rw [hg]; decide⟩
    · split
      · next hm => rw [if_pos hm] at h1; exact full h1 (by omega)
      · next hm => rw [if_neg hm] at h1; exact h1
    · split
      · next hm => rw [if_pos hm] at h4; exact h4
      · next hm => rw [if_neg hm] at h4; exact ⟨h4.1, full h4.2 (by omega)⟩
  · have := h5.le
    have hcx : c < x.length := by
      split at h1
      · rw [h1.unique h5]; exact hn
      · omega
    refine ⟨⟨n, h5, hn⟩, c, ?_, .inr ⟨h2, ?_, h4, full h5 (by omega)⟩⟩
    · split
      · next hm => rw [if_pos hm] at h1; exact full h1 (by omega)
      · next hm => rw [if_neg hm] at h1; exact h1
    · rw [Joint.get hcx]; exact h3

end Inner

mutual
theorem Sits.inner {α : Type} {x y y' : Bytes} {V : View α} (H : KeysStay x y y') {s : Spot} {v : α} {lo hi q : Nat} :
    Sits (x ++ y) V s v lo hi → FullGap (x ++ y) hi q → q < x.length → AfterColon (x ++ y) s lo → Sits (x ++ y') V s v lo hi
  | .scalar h1 h2 h3 h4, hg, hq, hk => .scalar h1 h2 (by have := hg.le; exact Nat.le_of_lt (Inner.len (by omega) _)) (Inner.token hg hq h4)
  | .lines h1 h2, hg, hq, hk => .lines h1 (Inner.block h2 hg hq)
  | .open h1 h2 h3 h4, hg, hq, hk => by
    have := hg.le
    have := Inner.len hq y
    omega
  | .empty h1 h2 h3, hg, hq, hk => by
    have := hg.le
    rw [← Joint.column (t' := y') (by omega)] at h3
    obtain ⟨a, h5, h6⟩ := hk _ rfl
    obtain ⟨k', q', h4⟩ := H a _ _ _ h5 h6 (by omega) h2
    exact .empty h1 h4 h3
  | .dashes h1 h2 h3, hg, hq, hk => by
    have h4 := h3.le
    have := hg.le
    have := h3.inner H hg hq
    rw [← Joint.column (t' := y') (by omega)] at this
    exact .dashes h1 h2 this
  | .keys h1 h2 h3, hg, hq, hk => by
    have h4 := h3.le
    have := hg.le
    have := h3.inner H hg hq
    rw [← Joint.column (t' := y') (by omega)] at this h2
    exact .keys h1 h2 this
  | .brackets h1 h2 h3 h4, hg, hq, hk => by
    have h5 := h4.le
    have h7 := h3.le
    have := hg.le
    exact .brackets h1 (by rw [Joint.get (by omega)]; exact h2) (Inner.full h3 (by omega)) (h4.inner H (by omega))
  | .braces h1 h2 h3 h4, hg, hq, hk => by
    have h5 := h4.le
    have h7 := h3.le
    have := hg.le
    exact .braces h1 (by rw [Joint.get (by omega)]; exact h2) (Inner.full h3 (by omega)) (h4.inner H (by omega))
theorem Rows.inner {α : Type} {x y y' : Bytes} {V : View α} (H : KeysStay x y y') {c : Nat} {first : Bool} {l : List (Option Bytes × α)} {lo hi q : Nat} :
    Rows (x ++ y) V c first l lo hi → FullGap (x ++ y) hi q → q < x.length → Rows (x ++ y') V c first l lo hi
  | .last h1 h2 h3 h4 h5 h6, hg, hq => by
    obtain rfl := h5.unique hg
    have h7 := h4.le
    have h8 := h3.le
    have h9 := h2.lt
    have h10 := hg.le
    exact .last (by rw [Joint.column (by omega)]; exact h1) (Inner.head h2 (by omega)) (Inner.full h3 (by omega)) (h4.inner H hg hq (.item h2 h3))
      (Inner.full hg (by omega)) (Ahead.goes hq h6)
  | .more h1 h2 h3 h4 h5 h6, hg, hq => by
    have h7 := h4.le
    have h8 := h3.le
    have h9 := h2.lt
    have h10 := hg.le
    have h11 := h6.le
    have h12 := h5.le
    exact .more (by rw [Joint.column (by omega)]; exact h1) (Inner.head h2 (by omega)) (Inner.full h3 (by omega)) (h4.inner H h5 (by omega) (.item h2 h3))
      (Inner.full h5 (by omega)) (h6.inner H hg hq)
theorem Cells.inner {α : Type} {x y y' : Bytes} {V : View α} (H : KeysStay x y y') {m last : Bool} {l : List (Option Bytes × α)} {n hi : Nat} :
    Cells (x ++ y) V m last l n hi → hi < x.length → Cells (x ++ y') V m last l n hi
  | .none h, hq => .none (by rw [Joint.get hq]; exact h)
  | .final h1 h2 h3 h4 h5 h6, hq => by
    have h7 := h4.le
    have h8 := h3.le
    have h9 := h2.le
    have h10 := h5.le
    exact .final (by unfold Opens; rw [Joint.getD (by omega)]; exact h1) (Joint.cellHead h2 (by omega)) (Inner.full h3 (by omega))
      (h4.inner H h5 (by omega) .flow) (Inner.full h5 (by omega)) (by rw [Joint.get hq]; exact h6)
  | .cell (start := start) h1 h2 h3 h4 h5 h6, hq => by
    have h7 := h4.le
    have h8 := h3.le
    have h9 := h2.le
    have h10 := h6.le
    obtain ⟨⟨q, h11, h12⟩, h13⟩ := Inner.nextCell (y' := y') (by omega) h5
    have h14 := h11.le
    refine .cell (by unfold Opens; rw [Joint.getD (by omega)]; exact h1) (Joint.cellHead h2 (by omega)) (Inner.full h3 (by omega)) (h4.inner H h11 (by omega) .flow)
      (?_ : NextCell _ _ _ _ _ start _) (h6.inner H hq)
    unfold atBlock at h13 ⊢
    rw [Joint.getD (by omega)]
    exact h13
end

end Verif
