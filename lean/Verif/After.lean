import Verif.ExactRules
import Verif.ExactLead
import Verif.ShiftDoc
/-
White space and comments put after a text that ends with a line break: every value is where it was.
-/
namespace Verif

/-- `t` is put after `x`. -/
structure Tail (x t : Bytes) : Prop where
  last : x.getLast? = some NL
  blank : blank t = true
  ends : t = [] ∨ t.getLast? = some NL

theorem wsGo_after {t : Bytes} (hb : blankGo false t = true) : ∀ {c : Bool} {r : Bytes}, (r = [] ∧ c = false ∨ r.getLast? = some NL) →
    (wsGo c (r ++ t)).1 = if (wsGo c r).1 = r.length then r.length + t.length else (wsGo c r).1
  | c, [], h => by
    rcases h with ⟨-, rfl⟩ | h
    · simp only [List.nil_append, wsGo, List.length_nil, if_true, Nat.zero_add]
      exact wsGo_blank hb
    · cases h
  | c, b :: r, h => by
    have hl : (b :: r).getLast? = some NL := by rcases h with ⟨h, -⟩ | hl <;> first | cases h | exact hl
    have hl' : ∀ c', (c' = true → b ≠ NL) → r = [] ∧ c' = false ∨ r.getLast? = some NL := fun c' hc' => by
      cases r with
      | nil =>
        simp at hl
        cases c' with
        | false => exact .inl ⟨rfl, rfl⟩
        | true => exact absurd hl (hc' rfl)
      | cons a r => exact .inr (by simpa using hl)
    cases c with
    | true =>
      rw [List.cons_append, wsGo, wsGo]
      by_cases hn : b = NL
      · have := wsGo_after hb (c := false) (hl' false (fun h => by cases h))
        simp only [hn, beq_self_eq_true, if_true, List.length_cons, this]
        split <;> split <;> omega
      · have hn' : (b == NL) = false := by simpa using hn
        have := wsGo_after hb (c := true) (hl' true (fun _ => hn))
        simp only [hn', Bool.false_eq_true, if_false, List.length_cons, this]
        split <;> split <;> omega
    | false =>
      rw [List.cons_append, wsGo, wsGo]
      by_cases hh : b = HASH
      · have := wsGo_after hb (c := true) (hl' true (fun _ => by rw [hh]; decide))
        simp only [hh, beq_self_eq_true, if_true, List.length_cons, this]
        split <;> split <;> omega
      · have hh' : (b == HASH) = false := by simpa using hh
        have := wsGo_after hb (c := false) (hl' false (fun h => by cases h))
        simp only [hh', Bool.false_eq_true, if_false, List.length_cons]
        split
        · simp only [this]
          split <;> split <;> omega
        · split
          · simp only [this]
            split <;> split <;> omega
          · simp

/-- Where a position of `x` is when `t` is put after it: the end moves. -/
def mv (x t : Bytes) (n : Nat) : Nat := if n = x.length then x.length + t.length else n

theorem mv_lt {x t : Bytes} {n : Nat} (h : n < x.length) : mv x t n = n := if_neg (by omega)

theorem mv_end (x t : Bytes) : mv x t x.length = (x ++ t).length := by simp [mv]

theorem append_get {x t : Bytes} {n : Nat} (h : n < x.length) : (x ++ t)[n]? = x[n]? := List.getElem?_append_left h

theorem append_getD {x t : Bytes} {n : Nat} (h : n < x.length) : (x ++ t).getD n 0 = x.getD n 0 := by
  rw [List.getD_eq_getElem?_getD, List.getD_eq_getElem?_getD, append_get h]

theorem append_slice {x t : Bytes} {a b : Nat} (h : b ≤ x.length) : slice (x ++ t) a b = slice x a b := by
  unfold slice
  by_cases ha : a ≤ x.length
  · rw [List.drop_append_of_le_length ha, List.take_append_of_le_length (by rw [List.length_drop]; omega)]
  · rw [show b - a = 0 by omega, List.take_zero, List.take_zero]

theorem append_column {x t : Bytes} {n : Nat} (h : n ≤ x.length) : columnAt (x ++ t) n = columnAt x n := by
  unfold columnAt
  rw [List.take_append_of_le_length h]

theorem lt_get {x : Bytes} {n : Nat} {b : UInt8} (h : x[n]? = some b) : n < x.length := by
  rcases List.getElem?_eq_some_iff.1 h with ⟨h, -⟩
  exact h

namespace Tail

variable {x t : Bytes} (H : Tail x t)
include H

theorem pos : 0 < x.length := by
  cases x with
  | nil => cases H.last
  | cons a r => simp

theorem lastGet : x[x.length - 1]? = some NL := by rw [← List.getLast?_eq_getElem?]; exact H.last

/-- Nothing but the last line break is last. -/
theorem next {n : Nat} {b : UInt8} (h : x[n]? = some b) (hb : b ≠ NL) : n + 1 < x.length := by
  have h1 := lt_get h
  rcases Nat.lt_or_ge (n + 1) x.length with h2 | h2
  · exact h2
  · rw [show n = x.length - 1 by omega, H.lastGet] at h
    cases h
    exact absurd rfl hb

theorem dropLast {n : Nat} (h : n < x.length) : (x.drop n).getLast? = some NL := by
  rw [List.getLast?_drop, if_neg (by omega)]
  exact H.last

theorem wsEnd {n : Nat} (h : n ≤ x.length) : wsEnd (x ++ t) n = mv x t (Verif.wsEnd x n) := by
  unfold Verif.wsEnd
  rw [List.drop_append_of_le_length h, wsGo_after H.blank (by
    rcases Nat.lt_or_ge n x.length with h1 | h1
    · exact .inr (H.dropLast h1)
    · exact .inl ⟨List.drop_eq_nil_iff.2 h1, rfl⟩)]
  have := (wsGo_spec false (x.drop n)).1
  rw [List.length_drop] at this ⊢
  unfold mv
  split <;> split <;> omega

theorem full {a b : Nat} (h : FullGap x a b) : FullGap (x ++ t) a (mv x t b) := by
  have hl := h.le
  rw [← h.eq, ← H.wsEnd (by omega)]
  exact FullGap.ws (by rw [List.length_append]; omega)

omit H in
theorem fullEnd : FullGap (x ++ t) (mv x t x.length) (mv x t x.length) := by
  have := FullGap.ws (inp := x ++ t) (n := (x ++ t).length) (Nat.le_refl _)
  rw [mv_end]
  rwa [show Verif.wsEnd (x ++ t) (x ++ t).length = (x ++ t).length by simp [Verif.wsEnd, wsGo]] at this

theorem fullMv {a b : Nat} (h : FullGap x a b) : FullGap (x ++ t) (mv x t a) (mv x t b) := by
  by_cases ha : a = x.length
  · have := h.le
    rw [ha, show b = x.length by omega]
    exact fullEnd
  · rw [mv_lt (by have := h.le; omega)]
    exact H.full h

theorem fullLt {a b : Nat} (h : FullGap x a b) (hb : b < x.length) : FullGap (x ++ t) a b := by
  have := H.full h
  rwa [mv_lt hb] at this

omit H in
/-- A value that is followed by something does not touch the end. -/
theorem free {a b : Nat} (h : FullGap x a b) (hb : b < x.length) : ¬ FullGap x a x.length := fun h' => by
  have := h.unique h'
  omega

theorem columnEnd : columnAt (x ++ t) (x ++ t).length = 0 := by
  unfold columnAt
  rw [List.take_length]
  have : (x ++ t).getLast? = some NL := by
    rcases H.ends with h | h
    · rw [h, List.append_nil]; exact H.last
    · rw [List.getLast?_append, h]; rfl
  obtain ⟨a, ha⟩ := List.getLast?_eq_some_iff.1 this
  rw [ha, List.reverse_append]
  rfl

theorem columnLen : columnAt x x.length = 0 := by
  have := columnEnd (x := x) (t := []) ⟨H.last, rfl, .inl rfl⟩
  rwa [List.append_nil] at this

/-! ### Scalars -/

omit H in
theorem lineEnds {r : Bytes} (h : NL ∈ r) : lineEnds (r ++ t) = lineEnds r := by
  unfold Verif.lineEnds
  have : ∀ r : Bytes, NL ∈ r → ∃ b q, r.dropWhile isOtherWs = b :: q ∧ (r ++ t).dropWhile isOtherWs = b :: q ++ t := by
    intro r
    induction r with
    | nil => intro h; cases h
    | cons b r ih =>
      intro h
      by_cases hb : isOtherWs b = true
      · rw [List.cons_append, List.dropWhile_cons, if_pos hb, List.dropWhile_cons, if_pos hb]
        refine ih ?_
        rcases List.mem_cons.1 h with h | h
        · rw [← h] at hb; exact absurd hb (by decide)
        · exact h
      · rw [List.cons_append, List.dropWhile_cons, if_neg hb, List.dropWhile_cons, if_neg hb]
        exact ⟨b, r, rfl, rfl⟩
  obtain ⟨b, q, h1, h2⟩ := this r h
  rw [h1, h2]
  rfl

omit H in
theorem dashes_after {r : Bytes} (hr : NL ∈ r) (s : Bytes) : dashes (s ++ (r ++ t)) = dashes (s ++ r) := by
  cases r with
  | nil => cases hr
  | cons b r =>
    cases s with
    | nil =>
      cases r with
      | nil =>
        simp at hr
        subst hr
        rfl
      | cons c r => rfl
    | cons a s =>
      cases s with
      | nil => rfl
      | cons a' s => rfl

omit H in
theorem token {fl : Bool} {r s : Bytes} {a : AnyV} (hr : NL ∈ r) (h : Token fl r s a) : Token fl (r ++ t) s a := by
  have h0 : ∀ d, (r ++ t).headD d = r.headD d := fun d => by
    cases r with
    | nil => cases hr
    | cons b r => rfl
  cases h with
  | number h1 h2 => exact .number h1 (by rw [h0, lineEnds hr]; exact h2)
  | plain h1 h2 =>
    refine .plain h1 ?_
    unfold plainText at h2 ⊢
    rw [h0, h0]
    rw [dashes_after hr]
    exact h2
  | quoted h1 h2 h3 => exact .quoted h1 (by rw [h0]; exact h2) (by rw [h0]; exact h3)

theorem mem_drop {n : Nat} (h : n < x.length) : NL ∈ x.drop n := List.mem_of_getLast? (H.dropLast h)

/-- A scalar outside of an inline collection does not end with the line break. -/
theorem tokenEnd {lo : Nat} {a : AnyV} (h : Token false (x.drop x.length) (Verif.slice x lo x.length) a) : x.length ≤ lo := by
  rcases Nat.lt_or_ge lo x.length with hlo | hlo
  · exfalso
    have hs : Verif.slice x lo x.length = x.drop lo := by
      unfold Verif.slice
      rw [List.take_of_length_le (by rw [List.length_drop]; omega)]
    have hd := H.dropLast hlo
    rw [hs] at h
    generalize x.drop lo = s at h hd
    cases h with
    | number h1 _ => rcases isNumber_chars h1 NL (List.mem_of_getLast? hd) with h | h <;> exact absurd h (by decide)
    | plain _ h2 =>
      simp only [plainText, Bool.and_eq_true, Bool.not_eq_true', Bool.false_eq_true, if_false] at h2
      have : s.contains NL = true := by simpa using List.mem_of_getLast? hd
      rw [h2.2.1.1.1] at this
      cases this
    | quoted h1 _ _ =>
      cases h1 with
      | single s => unfold quoteSingle at hd; rw [List.getLast?_append] at hd; simp at hd; exact absurd hd (by decide)
      | double h1 h2 => rw [List.getLast?_append] at hd; simp at hd; rcases h2 with rfl | rfl <;> exact absurd hd (by decide)
  · exact hlo

/-! ### Block scalars -/

theorem line {a b : Nat} (ha : a < x.length) (h : LineAt x a b) (hb : b ≤ x.length) : b < x.length ∧ LineAt (x ++ t) a b := by
  obtain ⟨h1, h2, h3⟩ := h
  have hlt : b < x.length := by
    rcases Nat.lt_or_ge b x.length with hl | hl
    · exact hl
    · exfalso
      refine h2 ?_
      unfold Verif.slice
      rw [List.take_of_length_le (by rw [List.length_drop]; omega)]
      exact H.mem_drop ha
  refine ⟨hlt, h1, by rw [append_slice hb]; exact h2, .inr ?_⟩
  rw [append_get hlt]
  rcases h3 with h3 | h3
  · omega
  · exact h3

omit H in
theorem breaks {a b : Nat} (hb : b ≤ x.length) : breaksIn (x ++ t) a b = breaksIn x a b := by
  unfold breaksIn
  rw [append_slice hb]

theorem breaksPos {a : Nat} (ha : a < x.length) : 0 < breaksIn x a x.length := by
  unfold breaksIn Verif.slice
  rw [List.take_of_length_le (by rw [List.length_drop]; omega)]
  exact List.count_pos_iff.2 (H.mem_drop ha)

theorem breaksPos' {a : Nat} (ha : a < x.length) : 0 < breaksIn (x ++ t) a (x ++ t).length := by
  unfold breaksIn Verif.slice
  rw [List.take_of_length_le (by rw [List.length_drop]; omega), List.drop_append_of_le_length (by omega)]
  exact List.count_pos_iff.2 (List.mem_append_left _ (H.mem_drop ha))

omit H in
theorem strip_of {ch : Chomp} {n : Nat} {v : Bytes} (hn : 0 < n) (h : (v ++ endBreaks ch n).getLast? ≠ some NL) : ch = .strip := by
  unfold endBreaks at h
  by_cases hc : ch = .strip
  · exact hc
  · rw [if_neg hc] at h
    exfalso
    apply h
    obtain ⟨m, rfl⟩ : ∃ m, n = m + 1 := ⟨n - 1, by omega⟩
    rw [List.replicate_succ', ← List.append_assoc, List.getLast?_append]
    rfl

omit H in
theorem suffix_last {a b : Bytes} (h : (a ++ b).getLast? ≠ some NL) : b.getLast? ≠ some NL := fun hb => by
  apply h
  rw [List.getLast?_append, hb]
  rfl

theorem atEnd {a : Nat} (h : FullGap x a x.length) : FullGap (x ++ t) a (x ++ t).length := by
  have := H.full h
  rwa [mv_end] at this

theorem rows {fo : Bool} {c p : Nat} {v : Bytes} {hi n : Nat} {ch : Chomp} :
    BlockRows x fo c p v hi n → (FullGap x hi x.length → (v ++ endBreaks ch n).getLast? ≠ some NL) →
    hi < x.length ∧ ∃ n', BlockRows (x ++ t) fo c p v hi n' ∧ endBreaks ch n' = endBreaks ch n
  | .last (q := q) h1 h2 h3 h4 h5, hF => by
    have hl := h4.le
    obtain ⟨he, h2'⟩ := H.line h1 h2 (by omega)
    refine ⟨he, ?_⟩
    have hp : p < (x ++ t).length := by rw [List.length_append]; omega
    rw [← append_slice (t := t) (by omega)] at h3
    by_cases hq : q = x.length
    · subst hq
      have hs := strip_of (H.breaksPos he) (hF h4)
      subst hs
      exact ⟨_, .last hp h2' h3 (H.atEnd h4) (by rw [H.columnEnd]; omega), rfl⟩
    · have hq' : q < x.length := by omega
      exact ⟨_, .last hp h2' h3 (H.fullLt h4 hq') (by rw [append_column (by omega)]; exact h5), by rw [breaks (by omega)]⟩
  | .final h1 h2 h3 h4 h5, hF => by
    have hl := h4.le
    obtain ⟨he, h2'⟩ := H.line h1 h2 (by omega)
    refine ⟨he, ?_⟩
    have hp : p < (x ++ t).length := by rw [List.length_append]; omega
    rw [← append_slice (t := t) (by omega)] at h3
    rw [H.columnLen] at h5
    have hs := strip_of (H.breaksPos he) (hF h4)
    subst hs
    cases fo with
    | true => exact ⟨_, .final hp h2' h3 (H.atEnd h4) (by omega), rfl⟩
    | false =>
      exfalso
      have := hF h4
      have hb := H.breaksPos he
      obtain ⟨m, hm⟩ : ∃ m, breaksIn x hi x.length = m + 1 := ⟨_, (Nat.succ_pred_eq_of_pos hb).symm⟩
      rw [hm] at this
      simp only [endBreaks, if_true, List.append_nil, between, Bool.false_eq_true, if_false] at this
      apply this
      rw [List.replicate_succ', ← List.append_assoc, List.getLast?_append]
      rfl
  | .more (q := q) h1 h2 h3 h4 h5 h6, hF => by
    have hl := h4.le
    obtain ⟨he, h2'⟩ := H.line h1 h2 (by omega)
    have hp : p < (x ++ t).length := by rw [List.length_append]; omega
    have hq := h6.lt
    rw [← append_slice (t := t) (by omega)] at h3
    obtain ⟨hh, n', h7, h8⟩ := rows (ch := ch) h6 (fun hg => by have := hF hg; rw [List.append_assoc] at this; exact suffix_last this)
    have := BlockRows.more hp h2' h3 (H.fullLt h4 hq) (by rw [append_column (by omega)]; exact h5) h7
    rw [breaks (by omega)] at this
    exact ⟨hh, n', this, h8⟩

theorem blockBody {fo : Bool} {h : Nat} {v : Bytes} {hi n : Nat} {ch : Chomp} (hb : BlockBody x fo h v hi n) (hh : h < x.length)
    (hF : FullGap x hi x.length → (v ++ endBreaks ch n).getLast? ≠ some NL) :
    hi < x.length ∧ ∃ n', BlockBody (x ++ t) fo h v hi n' ∧ endBreaks ch n' = endBreaks ch n := by
  cases hb with
  | below h1 h2 h3 =>
    have hp := h3.lt
    obtain ⟨h4, n', h5, h6⟩ := H.rows h3 hF
    rw [← append_column (t := t) (by omega)] at h5
    exact ⟨h4, n', .below (H.fullLt h1 hp) (by rw [breaks (by omega)]; exact h2) h5, h6⟩
  | nothing h1 h2 =>
    have hs := strip_of h2 (hF h1)
    subst hs
    exact ⟨hh, _, .nothing (H.atEnd h1) (H.breaksPos' hh), rfl⟩
  | @beside q _ _ h1 h2 h3 h4 h5 =>
    have hl := h5.le
    have hq : q < x.length := by
      have := h1.le
      rcases Nat.lt_or_ge q x.length with h | h
      · exact h
      · have := H.breaksPos hh
        rw [show x.length = q by omega] at this
        omega
    obtain ⟨he, h3'⟩ := H.line hh h3 (by omega)
    have hs := strip_of (H.breaksPos he) (hF h5)
    subst hs
    rw [← append_slice (t := t) (by omega)] at h4
    exact ⟨he, _, .beside (H.fullLt h1 hq) (by rw [breaks (by omega)]; exact h2) h3' h4 (H.atEnd h5), rfl⟩
  | @both q _ p _ _ _ _ h1 h2 h3 h4 h5 h6 =>
    have hl := h5.le
    have hp := h6.lt
    have hq : q < x.length := by
      have := h1.le
      rcases Nat.lt_or_ge q x.length with h | h
      · exact h
      · have := H.breaksPos hh
        rw [show x.length = q by omega] at this
        omega
    obtain ⟨he, h3'⟩ := H.line hh h3 (by omega)
    obtain ⟨h7, n', h8, h9⟩ := H.rows (ch := ch) h6 (fun hg => by have := hF hg; rw [List.append_assoc] at this; exact suffix_last this)
    rw [← append_slice (t := t) (by omega)] at h4
    rw [← append_column (t := t) (by omega)] at h8
    exact ⟨h7, n', .both (H.fullLt h1 hq) (by rw [breaks (by omega)]; exact h2) h3' h4 (H.fullLt h5 hp) h8, h9⟩

theorem block {lo : Nat} {v : Bytes} {hi : Nat} (h : BlockAt x lo v hi) (hF : FullGap x hi x.length → v.getLast? ≠ some NL) :
    lo < hi ∧ hi < x.length ∧ BlockAt (x ++ t) lo v hi := by
  obtain ⟨fo, ch, h, n, w, h1, h2, h3, h4, h5, rfl⟩ := h
  have hh : h < x.length := by
    rcases Nat.lt_or_ge h x.length with hh | hh
    · exact hh
    · exfalso
      have he : h = x.length := by omega
      subst he
      unfold Verif.slice at h3
      rw [List.take_of_length_le (by rw [List.length_drop]; omega)] at h3
      have := H.dropLast h1
      rw [h3] at this
      cases ch <;> cases fo <;> exact absurd this (by decide)
  obtain ⟨h6, n', h7, h8⟩ := H.blockBody h5 hh hF
  exact ⟨Nat.lt_of_lt_of_le h1 h5.le, h6, fo, ch, h, n', w, h1, by rw [List.length_append]; omega, by rw [append_slice h2]; exact h3,
    by rw [append_getD hh]; exact h4, h7, by rw [h8]⟩

/-! ### Keys -/

theorem keyEnd {p : Nat} (hp : p < x.length) : KeyEnd (x ++ t) p ↔ KeyEnd x p := by
  unfold KeyEnd
  rw [append_get hp]
  constructor
  · rintro ⟨h1, h2⟩
    rw [append_getD (H.next h1 (by decide))] at h2
    exact ⟨h1, h2⟩
  · rintro ⟨h1, h2⟩
    rw [append_getD (H.next h1 (by decide))]
    exact ⟨h1, h2⟩

theorem firstKey {k : Bytes} {lo q : Nat} (h : FirstKey x k lo q) : lo < x.length ∧ q + 1 < x.length ∧ FirstKey (x ++ t) k lo q := by
  obtain ⟨h1, h2, h3⟩ := h
  have hq := H.next h2 (by decide)
  refine ⟨by omega, hq, h1, by rw [append_get (by omega)]; exact h2, ?_⟩
  rw [append_slice (by omega), append_getD (by omega), H.keyEnd (by omega)]
  rcases h3 with h3 | ⟨h3, h4, h5, h6, h7, h8⟩
  · exact .inl h3
  · refine .inr ⟨h3, h4, ?_, h6, h7, fun p hp1 hp2 => by rw [H.keyEnd (by omega)]; exact h8 p hp1 hp2⟩
    rw [List.drop_append_of_le_length (by omega)]
    have := dashes_after (t := t) (H.mem_drop (n := lo) (by omega)) []
    simp only [List.nil_append] at this
    rw [this]
    exact h5

theorem head {first : Bool} {k : Option Bytes} {lo a : Nat} (h : Head x first k lo a) : a < x.length ∧ Head (x ++ t) first k lo a := by
  cases k with
  | none =>
    obtain ⟨h1, h2, rfl⟩ := h
    have := H.next h1 (by decide)
    exact ⟨this, by rw [append_get (by omega)]; exact h1, by rw [append_getD this]; exact h2, rfl⟩
  | some k =>
    obtain ⟨q, rfl, h⟩ := h
    cases first with
    | true =>
      obtain ⟨_, h1, h2⟩ := H.firstKey h
      exact ⟨h1, q, rfl, h2⟩
    | false =>
      obtain ⟨h1, h2, h3, h4⟩ := h
      have hq := H.next h2 (by decide)
      exact ⟨hq, q, rfl, h1, by rw [append_get (by omega)]; exact h2, by rw [append_slice (by omega)]; exact h3, h4⟩

theorem cellHead {k : Option Bytes} {lo a : Nat} (hlo : lo < x.length) (h : CellHead x k lo a) : a < x.length ∧ CellHead (x ++ t) k lo a := by
  cases k with
  | none => exact ⟨by rw [show a = lo from h]; exact hlo, h⟩
  | some k =>
    obtain ⟨q, h1, h2, rfl, h3, h4⟩ := h
    have hq : q + 1 < x.length := by rcases h2 with h2 | h2 <;> exact H.next h2 (by decide)
    exact ⟨hq, q, h1, by rw [append_get (by omega)]; exact h2, rfl, by rw [append_slice (by omega)]; exact h3, h4⟩

omit H in
theorem goes {m : Bool} {c q : Nat} (hq : q ≤ x.length) (h : ¬ Goes x m c q) : ¬ Goes (x ++ t) m c (mv x t q) := by
  by_cases he : q = x.length
  · subst he
    rw [mv_end]
    rintro ⟨-, h⟩
    rw [List.getD_eq_getElem?_getD, List.getElem?_eq_none (Nat.le_refl _)] at h
    cases m with
    | true => exact h.2 rfl
    | false => cases h
  · have hq' : q < x.length := by omega
    rw [mv_lt hq']
    unfold Goes
    rw [append_column hq, append_get hq', append_getD hq']
    exact h

theorem nextCell {m blk : Bool} {e : Nat} {last : Bool} {start n : Nat} (hn : n < x.length) (h : NextCell x m blk e last start n) :
    e ≤ n ∧ ¬ FullGap x e x.length ∧ NextCell (x ++ t) m blk e last start n := by
  obtain ⟨c, h1, h2⟩ := h
  have hec : e ≤ c := by
    split at h1
    · exact h1.le.1
    · omega
  rcases h2 with ⟨h2, h3, h4⟩ | ⟨h2, h3, h4, h5⟩
  · have hc := H.next h3 (by decide)
    have hcn : c ≤ n := by
      split at h4
      · omega
      · have := h4.2.le; omega
    refine ⟨by omega, fun hg => ?_, c, ?_, .inl ⟨h2, by rw [append_get (by omega)]; exact h3, ?_⟩⟩
    · split at h1
      · exact free h1 (by omega) hg
      · subst h1
        have h5 : c < x.length := by omega
        have h6 := hg.eq
        rw [List.getElem?_eq_getElem h5] at h3
        rw [Verif.wsEnd, List.drop_eq_getElem_cons h5, Option.some.inj h3] at h6
        have h7 : ∀ r, (wsGo false (COMMA :: r)).1 = 0 := fun r => rfl
        rw [h7] at h6
        omega
    · split
      · next hm => rw [if_pos hm] at h1; exact H.fullLt h1 (by omega)
      · next hm => rw [if_neg hm] at h1; exact h1
    · split
      · next hm => rw [if_pos hm] at h4; exact h4
      · next hm => rw [if_neg hm] at h4; exact ⟨h4.1, H.fullLt h4.2 hn⟩
  · have := h5.le
    have hc : c < x.length := by
      split at h1
      · rw [h1.unique h5]; exact hn
      · omega
    refine ⟨this.1, free h5 hn, c, ?_, .inr ⟨h2, by rw [append_get hc]; exact h3, h4, H.fullLt h5 hn⟩⟩
    split
    · next hm => rw [if_pos hm] at h1; exact H.fullLt h1 (by omega)
    · next hm => rw [if_neg hm] at h1; exact h1

/-- Quotes that are not closed end with the line break. -/
theorem opened {lo : Nat} {ps : List Piece} (hk : ps.all Piece.known = true) (h : x.drop lo = DQ :: ps.flatMap Piece.text) :
    (ps.flatMap Piece.reads).getLast? = some NL := by
  have hl : lo < x.length := by
    rcases Nat.lt_or_ge lo x.length with hl | hl
    · exact hl
    · rw [List.drop_eq_nil_iff.2 hl] at h; cases h
  have hd := H.dropLast hl
  rw [h] at hd
  rcases List.eq_nil_or_concat ps with rfl | ⟨qs, p, rfl⟩
  · exact absurd hd (by decide)
  · have hp : p.text.getLast? = some NL := by
      have ht : p.text ≠ [] := by cases p <;> simp [Piece.text]
      rw [List.concat_eq_append, List.flatMap_append, List.flatMap_singleton, ← List.cons_append, List.getLast?_append] at hd
      cases hg : p.text.getLast? with
      | none => exact absurd (List.getLast?_eq_none_iff.1 hg) ht
      | some b => rw [hg] at hd; exact hd
    have hp' : p.known = true := by
      rw [List.all_eq_true] at hk
      exact hk p (by simp)
    have : p = .byte NL := by
      cases p with
      | byte b => simp only [Piece.text, List.getLast?_singleton, Option.some.injEq] at hp; rw [hp]
      | esc c =>
        simp [Piece.text] at hp
        subst hp
        exact absurd hp' (by decide)
      | hex a b =>
        simp [Piece.text] at hp
        subst hp
        have h16 : number16 [a, NL] = none := by cases h : digit16 a <;> simp [number16, h, show digit16 NL = none by decide]
        simp [Piece.known, Piece.ok, charOf, h16] at hp'
      | uni a b c d =>
        simp [Piece.text] at hp
        subst hp
        have h16 : number16 [a, b, c, NL] = none := by
          cases h : digit16 a <;> cases h' : digit16 b <;> cases h'' : digit16 c <;> simp [number16, h, h', h'', show digit16 NL = none by decide]
        simp [Piece.known, Piece.ok, charOf, h16] at hp'
    subst this
    rw [List.concat_eq_append, List.flatMap_append, List.flatMap_singleton, List.getLast?_append]
    rfl

end Tail

/-! ### Values -/

/-- A property of values, by which the last scalar is not a string that ends with a line break. -/
structure View.Firm {α : Type} (V : View α) (F : α → Prop) : Prop where
  string : ∀ {v s}, V.scalar v (.string s) → F v → s.getLast? ≠ some NL
  seq : ∀ {v l}, V.seq v l → F v → ∀ w, l.getLast? = some w → F w
  map : ∀ {v l}, V.map v l → F v → ∀ e, l.getLast? = some e → F e.2

theorem Cells.closes {α : Type} {inp : Bytes} {V : View α} {m last : Bool} {l : List (Option Bytes × α)} {n hi : Nat} :
    Cells inp V m last l n hi → inp[hi]? = some (close m)
  | .none h => h
  | .final _ _ _ _ _ h => h
  | .cell _ _ _ _ _ h => h.closes

theorem Rows.start {α : Type} {inp : Bytes} {V : View α} {c : Nat} {first : Bool} {l : List (Option Bytes × α)} {lo hi : Nat} :
    Rows inp V c first l lo hi → ∃ k a, Head inp first k lo a
  | .last _ h _ _ _ _ => ⟨_, _, h⟩
  | .more _ h _ _ _ _ => ⟨_, _, h⟩

theorem Tail.rowsLt {α : Type} {x t : Bytes} (H : Tail x t) {V : View α} {c : Nat} {first : Bool} {l : List (Option Bytes × α)} {lo hi : Nat}
    (h : Rows x V c first l lo hi) : lo < x.length := by
  obtain ⟨k, a, h⟩ := h.start
  have := (H.head h).1
  have := h.lt
  omega

theorem Tail.cellsLt {α : Type} {x t : Bytes} (H : Tail x t) {V : View α} {m last : Bool} {l : List (Option Bytes × α)} {n hi : Nat}
    (h : Cells x V m last l n hi) : n ≤ hi ∧ hi + 1 < x.length := ⟨h.le, H.next h.closes (by cases m <;> decide)⟩

mutual
theorem Sits.after {α : Type} {x t : Bytes} {V : View α} {F : α → Prop} (H : Tail x t) (W : V.Firm F) {s : Spot} {v : α} {lo hi : Nat} :
    Sits x V s v lo hi → (s = .flow → hi < x.length) → (FullGap x hi x.length → F v) → Sits (x ++ t) V s v (mv x t lo) (mv x t hi)
  | .scalar h1 h2 h3 h4, hf, _ => by
    rcases Nat.lt_or_ge hi x.length with h | h
    · rw [mv_lt h, mv_lt (by omega)]
      exact .scalar h1 h2 (by rw [List.length_append]; omega) (by
        rw [append_slice h3, List.drop_append_of_le_length h3]
        exact Tail.token (H.mem_drop h) h4)
    · have he : hi = x.length := by omega
      subst he
      have hs : s.inline = false := by
        cases s with
        | flow => exact absurd (hf rfl) (by omega)
        | under c => rfl
        | block => rfl
      rw [hs] at h4
      have hl := H.tokenEnd h4
      have hlo : lo = x.length := by omega
      subst hlo
      rw [mv_end]
      refine .scalar h1 (Nat.le_refl _) (Nat.le_refl _) ?_
      rw [hs]
      simpa [slice] using h4
  | .lines h1 h2, _, hF => by
    obtain ⟨h3, h4, h5⟩ := H.block h2 (fun h => W.string h1 (hF h))
    rw [mv_lt h4, mv_lt (by omega)]
    exact .lines h1 h5
  | .open h1 _ h3 h4, _, hF => by
    exfalso
    refine W.string h1 (hF ?_) (H.opened h3 h4)
    have := FullGap.ws (inp := x) (n := x.length) (Nat.le_refl _)
    rwa [show wsEnd x x.length = x.length by simp [wsEnd, wsGo]] at this
  | .empty h1 h2 h3, _, _ => by
    obtain ⟨h4, _, h5⟩ := H.firstKey h2
    rw [mv_lt h4]
    exact .empty h1 h5 (by rw [append_column (by omega)]; exact h3)
  | .dashes h1 h2 h3, _, hF => by
    have hlo := H.rowsLt h3
    have := h3.after H W (fun hg e he => by
      rw [List.getLast?_map] at he
      obtain ⟨w, hw, rfl⟩ := Option.map_eq_some_iff.1 he
      exact W.seq h1 (hF hg) w hw)
    rw [mv_lt hlo]
    rw [← append_column (t := t) (by omega)] at this
    exact .dashes h1 h2 this
  | .keys h1 h2 h3, _, hF => by
    have hlo := H.rowsLt h3
    have := h3.after H W (fun hg e he => by
      rw [List.getLast?_map] at he
      obtain ⟨w, hw, rfl⟩ := Option.map_eq_some_iff.1 he
      exact W.map h1 (hF hg) w hw)
    rw [mv_lt hlo]
    rw [← append_column (t := t) (by omega)] at this h2
    exact .keys h1 h2 this
  | .brackets h1 h2 h3 h4, _, _ => by
    obtain ⟨h5, h6⟩ := H.cellsLt h4
    have h7 := h3.le
    rw [mv_lt h6, mv_lt (by omega)]
    exact .brackets h1 (by rw [append_get (by omega)]; exact h2) (H.fullLt h3 (by omega)) (h4.after H W)
  | .braces h1 h2 h3 h4, _, _ => by
    obtain ⟨h5, h6⟩ := H.cellsLt h4
    have h7 := h3.le
    rw [mv_lt h6, mv_lt (by omega)]
    exact .braces h1 (by rw [append_get (by omega)]; exact h2) (H.fullLt h3 (by omega)) (h4.after H W)
theorem Rows.after {α : Type} {x t : Bytes} {V : View α} {F : α → Prop} (H : Tail x t) (W : V.Firm F) {c : Nat} {first : Bool} {l : List (Option Bytes × α)}
    {lo hi : Nat} : Rows x V c first l lo hi → (FullGap x hi x.length → ∀ e, l.getLast? = some e → F e.2) → Rows (x ++ t) V c first l lo (mv x t hi)
  | .last (k := k) h1 h2 h3 h4 h5 h6, hF => by
    obtain ⟨h7, h8⟩ := H.head h2
    have h9 := h2.lt
    have h10 := h5.le
    refine .last (by rw [append_column (by omega)]; exact h1) h8 (H.full h3)
      (h4.after H W (fun hs => by unfold Spot.item at hs; split at hs <;> cases hs) (fun hg => hF hg _ rfl)) (H.fullMv h5) (Tail.goes (by omega) h6)
  | .more (rest := rest) (e := e) h1 h2 h3 h4 h5 h6, hF => by
    obtain ⟨h7, h8⟩ := H.head h2
    have h9 := h2.lt
    have h10 := h5.le
    have h11 := H.rowsLt h6
    have h12 := h4.after H W (fun hs => by unfold Spot.item at hs; split at hs <;> cases hs) (fun hg => absurd hg (Tail.free h5 h11))
    rw [mv_lt (n := e) (by omega)] at h12
    refine .more (by rw [append_column (by omega)]; exact h1) h8 (H.full h3) h12 (H.fullLt h5 h11) (h6.after H W (fun hg e he => hF hg e ?_))
    cases rest with
    | nil => cases he
    | cons a r => rw [List.getLast?_cons_cons]; exact he
theorem Cells.after {α : Type} {x t : Bytes} {V : View α} {F : α → Prop} (H : Tail x t) (W : V.Firm F) {m last : Bool} {l : List (Option Bytes × α)} {n hi : Nat} :
    Cells x V m last l n hi → Cells (x ++ t) V m last l n hi
  | .none h => .none (by rw [append_get (lt_get h)]; exact h)
  | .final (n := n) (b := b) (e := e) h1 h2 h3 h4 h5 h6 => by
    have h7 := lt_get h6
    have h8 := h5.le
    have h9 := h4.le
    have h10 := h3.le
    have h11 := h2.le
    obtain ⟨h12, h13⟩ := H.cellHead (by omega) h2
    have h14 := h4.after H W (fun _ => by omega) (fun hg => absurd hg (Tail.free h5 h7))
    rw [mv_lt (n := e) (by omega), mv_lt (n := b) (by omega)] at h14
    exact .final (by unfold Opens; rw [append_getD (by omega)]; exact h1) h13 (H.fullLt h3 (by omega)) h14 (H.fullLt h5 h7) (by rw [append_get h7]; exact h6)
  | .cell (n := n) (b := b) (e := e) (start := start) (n' := n') h1 h2 h3 h4 h5 h6 => by
    obtain ⟨h7, h8⟩ := H.cellsLt h6
    obtain ⟨h9, hfree, h10⟩ := H.nextCell (by omega) h5
    have h11 := h4.le
    have h12 := h3.le
    have h13 := h2.le
    obtain ⟨h14, h15⟩ := H.cellHead (by omega) h2
    have h16 := h4.after H W (fun _ => by omega) (fun hg => absurd hg hfree)
    rw [mv_lt (n := e) (by omega), mv_lt (n := b) (by omega)] at h16
    refine .cell (by unfold Opens; rw [append_getD (by omega)]; exact h1) h15 (H.fullLt h3 (by omega)) h16 (?_ : NextCell _ _ _ _ _ start _) (h6.after H W)
    unfold atBlock at h10 ⊢
    rw [append_getD (by omega)]
    exact h10
end

/-! ### The text -/

theorem skipBlank_after {t : Bytes} (hb : blank t = true) {r : Bytes} (hr : r.getLast? = some NL) :
    skipBlank false (r ++ t) = if skipBlank false r = [] then [] else skipBlank false r ++ t := by
  rw [skipBlank_eq, skipBlank_eq, wsGo_after hb (.inr hr)]
  have := (wsGo_spec false r).1
  by_cases h : (wsGo false r).1 = r.length
  · rw [if_pos h, h, List.drop_length, if_pos rfl, List.drop_eq_nil_iff]
    simp
  · rw [if_neg h, if_neg (by rw [List.drop_eq_nil_iff]; omega), List.drop_append_of_le_length (by omega)]

theorem getLast?_drop_of {r : Bytes} {b : UInt8} (hr : r.getLast? = some b) {n : Nat} (hn : n < r.length) : (r.drop n).getLast? = some b := by
  rw [List.getLast?_drop, if_neg (by omega)]
  exact hr

theorem getLast?_suffix {r s : Bytes} {b : UInt8} (hr : r.getLast? = some b) (h : s <:+ r) (hs : s ≠ []) : s.getLast? = some b := by
  obtain ⟨a, rfl⟩ := h
  rw [List.getLast?_append] at hr
  cases h : s.getLast? with
  | none => exact absurd (List.getLast?_eq_none_iff.1 h) hs
  | some c => rw [h] at hr; exact hr

theorem bodyGo_after {t : Bytes} (hb : blank t = true) : ∀ (f : Nat) {r : Bytes}, r.getLast? = some NL →
    (bodyGo f r).getLast? = some NL ∧ bodyGo f (r ++ t) = bodyGo f r ++ t
  | 0, r, hr => ⟨hr, rfl⟩
  | f + 1, r, hr => by
    have hs : skipBlank false r <:+ r := by rw [skipBlank_eq]; exact List.drop_suffix _ _
    rw [bodyGo, bodyGo, skipBlank_after hb hr]
    generalize skipBlank false r = q at hs
    by_cases hq : q = []
    · subst hq
      have : ((0 : UInt8) == PCT) = false := by decide
      simp [this, hr]
    · have hl := getLast?_suffix hr hs hq
      have hm : NL ∈ q := List.mem_of_getLast? hl
      rw [if_neg hq]
      have hh : (q ++ t).headD 0 = q.headD 0 := by cases q with | nil => exact absurd rfl hq | cons b q => rfl
      simp only [hh]
      split
      · have hd : ∀ q : Bytes, NL ∈ q → q.dropWhile (· != NL) ≠ [] ∧ (q ++ t).dropWhile (· != NL) = q.dropWhile (· != NL) ++ t := by
          intro q
          induction q with
          | nil => intro h; cases h
          | cons b q ih =>
            intro h
            by_cases hbn : b = NL
            · subst hbn; exact ⟨by simp, rfl⟩
            · have hbn' : (b != NL) = true := by simpa using hbn
              rw [List.cons_append, List.dropWhile_cons, List.dropWhile_cons, if_pos hbn', if_pos hbn']
              exact ih (by rcases List.mem_cons.1 h with h | h; exact absurd h.symm hbn; exact h)
        obtain ⟨hd1, hd2⟩ := hd q hm
        rw [hd2]
        exact bodyGo_after hb f (getLast?_suffix hl (List.dropWhile_suffix _) hd1)
      · by_cases h3 : 3 ≤ q.length
        · rw [List.take_append_of_le_length h3]
          split
          · next h4 =>
            have h5 : 3 < q.length := by
              rcases Nat.lt_or_ge 3 q.length with h5 | h5
              · exact h5
              · exfalso
                rw [List.take_of_length_le h5, beq_iff_eq] at h4
                rw [h4] at hl
                exact absurd hl (by decide)
            rw [List.drop_append_of_le_length h3]
            exact ⟨getLast?_drop_of hl h5, rfl⟩
          · exact ⟨hr, rfl⟩
        · have h4 : (q.take 3 == [DASH, DASH, DASH]) = false := by
            rw [beq_eq_false_iff_ne]
            intro h
            have := congrArg List.length h
            simp at this
            omega
          have h5 : ((q ++ t).take 3 == [DASH, DASH, DASH]) = false := by
            rw [beq_eq_false_iff_ne]
            intro h
            have h6 : NL ∈ (q ++ t).take 3 := by
              rw [List.take_append, List.take_of_length_le (by omega)]
              exact List.mem_append_left _ hm
            rw [h] at h6
            exact absurd h6 (by decide)
          rw [h4, h5]
          exact ⟨hr, rfl⟩

theorem bodyGo_more : ∀ (f g : Nat) (s : Bytes), s.length < f → s.length < g → bodyGo f s = bodyGo g s
  | 0, _, _, h, _ => by omega
  | _, 0, _, _, h => by omega
  | f + 1, g + 1, s, hf, hg => by
    have hs : (skipBlank false s).length ≤ s.length := by rw [skipBlank_eq, List.length_drop]; omega
    simp only [bodyGo]
    generalize skipBlank false s = q at hs
    split
    · next h =>
      have : (q.dropWhile (· != NL)).length < q.length := by
        cases q with
        | nil => exact absurd h (by decide)
        | cons b q =>
          have hb : b = PCT := by simpa using h
          subst hb
          have := (List.dropWhile_suffix (l := q) (· != NL)).length_le
          rw [List.dropWhile_cons, if_pos (by decide)]
          simp only [List.length_cons]
          omega
      exact bodyGo_more f g _ (by omega) (by omega)
    · rfl

theorem Tail.body {x t : Bytes} (H : Tail x t) : (body x).getLast? = some NL ∧ body (x ++ t) = body x ++ t := by
  obtain ⟨h1, h2⟩ := bodyGo_after H.blank (x.length + 1) H.last
  refine ⟨h1, ?_⟩
  unfold Verif.body
  rw [(bodyGo_after H.blank ((x ++ t).length + 1) H.last).2, bodyGo_more _ (x.length + 1) x (by rw [List.length_append]; omega) (by omega)]

end Verif
