import Verif.After
import Verif.Clear
/-
White space and comments in a text are exchanged for others: every value is where it was, or as much further to the right as there is more.
-/
namespace Verif

theorem wsGo_blankTo {q : Bytes} : ∀ {c : Bool} {t : Bytes}, blankGo c t = true → (q.head? = some NL ∨ (t = [] ∧ c = false ∨ t.getLast? = some NL)) →
    (wsGo c (t ++ q)).1 = t.length + (wsGo false q).1
  | c, [], _, h => by
    cases c with
    | false => simp
    | true =>
      rcases h with h | ⟨-, h⟩ | h
      · cases q with
        | nil => cases h
        | cons b q => cases h; simp [wsGo, show (NL == HASH) = false by decide]
      · cases h
      · cases h
  | c, b :: t, hb, h => by
    have hl' : ∀ c', (c' = true → b ≠ NL) → q.head? = some NL ∨ (t = [] ∧ c' = false ∨ t.getLast? = some NL) := fun c' hc' => by
      rcases h with h | ⟨h, -⟩ | h
      · exact .inl h
      · cases h
      · cases t with
        | nil =>
          simp at h
          cases c' with
          | false => exact .inr (.inl ⟨rfl, rfl⟩)
          | true => exact absurd h (hc' rfl)
        | cons a r => exact .inr (.inr (by simpa using h))
    cases c with
    | true =>
      rw [blankGo] at hb
      rw [List.cons_append, wsGo]
      by_cases hn : b = NL
      · have := wsGo_blankTo (c := false) (t := t) (by simpa [hn] using hb) (hl' false (fun h => by cases h))
        simp only [hn, beq_self_eq_true, if_true, List.length_cons, this]
        omega
      · have hn' : (b == NL) = false := by simpa using hn
        have := wsGo_blankTo (c := true) (t := t) (by simpa [bne, hn'] using hb) (hl' true (fun _ => hn))
        simp only [hn', Bool.false_eq_true, if_false, List.length_cons, this]
        omega
    | false =>
      rw [blankGo] at hb
      rw [List.cons_append, wsGo]
      by_cases hh : b = HASH
      · have := wsGo_blankTo (c := true) (t := t) (by simpa [hh] using hb) (hl' true (fun _ => by rw [hh]; decide))
        simp only [hh, beq_self_eq_true, if_true, List.length_cons, this]
        omega
      · have hh' : (b == HASH) = false := by simpa using hh
        simp only [hh', Bool.false_eq_true, if_false, Bool.and_eq_true] at hb
        have := wsGo_blankTo (c := false) (t := t) hb.2 (hl' false (fun h => by cases h))
        simp only [hh', Bool.false_eq_true, if_false, List.length_cons]
        by_cases hn : b = NL
        · simp only [hn, beq_self_eq_true, if_true, this]
          omega
        · have hn' : (b == NL) = false := by simpa using hn
          have ho : isOtherWs b = true := by
            have := hb.1
            revert this hn'
            exact byte_cases (p := fun b => (b == NL) = false → isWs b = true → isOtherWs b = true) (by set_option maxRecDepth 100000 in decide) b
          simp only [hn', ho, Bool.false_eq_true, if_false, if_true, this]
          omega

theorem blankGo_true {t : Bytes} (h : NL ∉ t) : blankGo true t = true := by
  induction t with
  | nil => rfl
  | cons b t ih =>
    simp only [List.mem_cons, not_or] at h
    rw [blankGo, show (b != NL) = true by simpa using Ne.symm h.1]
    exact ih h.2

/-- White space and comments with `r` before and `q` after them. -/
theorem wsGo_mid {t q : Bytes} (hb : blankGo false t = true) (hq : q.head? = some NL ∧ NL ∉ t ∨ (t = [] ∨ t.getLast? = some NL)) :
    ∀ {c : Bool} {r : Bytes}, (q.head? = some NL ∧ NL ∉ t ∨ (r = [] ∧ c = false ∨ r.getLast? = some NL)) →
    (wsGo c (r ++ (t ++ q))).1 = if (wsGo c r).1 = r.length then r.length + t.length + (wsGo false q).1 else (wsGo c r).1
  | c, [], h => by
    have hw : ∀ c, (wsGo c []).1 = 0 := fun c => by cases c <;> rfl
    rw [hw, List.nil_append, if_pos (by rfl), List.length_nil, Nat.zero_add]
    rcases h with h | ⟨-, rfl⟩ | h
    · refine wsGo_blankTo ?_ (.inl h.1)
      cases c with
      | false => exact hb
      | true => exact blankGo_true h.2
    · refine wsGo_blankTo hb ?_
      rcases hq with hq | hq | hq
      · exact .inl hq.1
      · exact .inr (.inl ⟨hq, rfl⟩)
      · exact .inr (.inr hq)
    · cases h
  | c, b :: r, h => by
    have hl' : ∀ c', (c' = true → b ≠ NL) → q.head? = some NL ∧ NL ∉ t ∨ (r = [] ∧ c' = false ∨ r.getLast? = some NL) := fun c' hc' => by
      rcases h with h | ⟨h, -⟩ | h
      · exact .inl h
      · cases h
      · cases r with
        | nil =>
          simp at h
          cases c' with
          | false => exact .inr (.inl ⟨rfl, rfl⟩)
          | true => exact absurd h (hc' rfl)
        | cons a r => exact .inr (.inr (by simpa using h))
    cases c with
    | true =>
      rw [List.cons_append, wsGo, wsGo]
      by_cases hn : b = NL
      · have := wsGo_mid hb hq (c := false) (hl' false (fun h => by cases h))
        simp only [hn, beq_self_eq_true, if_true, List.length_cons, this]
        split <;> split <;> omega
      · have hn' : (b == NL) = false := by simpa using hn
        have := wsGo_mid hb hq (c := true) (hl' true (fun _ => hn))
        simp only [hn', Bool.false_eq_true, if_false, List.length_cons, this]
        split <;> split <;> omega
    | false =>
      rw [List.cons_append, wsGo, wsGo]
      by_cases hh : b = HASH
      · have := wsGo_mid hb hq (c := true) (hl' true (fun _ => by rw [hh]; decide))
        simp only [hh, beq_self_eq_true, if_true, List.length_cons, this]
        split <;> split <;> omega
      · have hh' : (b == HASH) = false := by simpa using hh
        have := wsGo_mid hb hq (c := false) (hl' false (fun h => by cases h))
        simp only [hh', Bool.false_eq_true, if_false, List.length_cons]
        split
        · simp only [this]
          split <;> split <;> omega
        · split
          · simp only [this]
            split <;> split <;> omega
          · simp

namespace Swap

variable {line : Bool} {p t t' q : Bytes}

theorem symm (H : Swap line p t t' q) : Swap line p t' t q :=
  ⟨H.blank', H.blank, fun h => ⟨(H.lines h).1, (H.lines h).2.2, (H.lines h).2.1⟩,
    fun h => ⟨(H.ends h).1, (H.ends h).2.2.1, (H.ends h).2.1, (H.ends h).2.2.2.2, (H.ends h).2.2.2.1⟩⟩

/-- The position is before the part that is exchanged, or directly before it at the end of a line. -/
def Bef (line : Bool) (p : Bytes) (k : Nat) : Prop := k < p.length ∨ line = false ∧ k = p.length

instance : Decidable (Bef line p k) := by unfold Bef; infer_instance

/-- The position is after the part that is exchanged, and after the end of that line. -/
def Aft (line : Bool) (p t : Bytes) (k : Nat) : Prop := p.length + t.length ≤ k ∧ (line = false → k ≠ p.length + t.length)

theorem Aft.notBef {k : Nat} (h : Aft line p t k) : ¬ Bef line p k := by
  rintro (h1 | ⟨h1, h2⟩)
  · have := h.1; omega
  · have := h.1; have := h.2 h1; omega

/-- Where a position is after the exchange. -/
def f (line : Bool) (p t t' : Bytes) (k : Nat) : Nat := if Bef line p k then k else k + t'.length - t.length

theorem f_bef {k : Nat} (h : Bef line p k) : f line p t t' k = k := if_pos h

theorem f_aft {k : Nat} (h : Aft line p t k) : f line p t t' k = k + t'.length - t.length := if_neg h.notBef

theorem Aft.up {j k : Nat} (h : Aft line p t j) (hk : j ≤ k) : Aft line p t k := by
  have := h.1
  exact ⟨by omega, fun hl => by have := h.2 hl; omega⟩

theorem Bef.le {k : Nat} (h : Bef line p k) : k ≤ p.length := by
  unfold Bef at h
  omega

theorem Bef.down {j k : Nat} (h : Bef line p k) (hj : j ≤ k) : Bef line p j := by
  unfold Bef at h ⊢
  rcases h with h | h
  · exact .inl (by omega)
  · rcases Nat.lt_or_ge j p.length with h1 | h1
    · exact .inl h1
    · exact .inr ⟨h.1, by omega⟩

/-- After the exchange it is after the new part. -/
theorem Aft.f {k : Nat} (h : Aft line p t k) : Aft line p t' (Swap.f line p t t' k) := by
  rw [f_aft h]
  have := h.1
  exact ⟨by omega, fun hl => by have := h.2 hl; omega⟩

/-! ### Bytes -/

theorem getB {k : Nat} (h : k < p.length) : (p ++ (t' ++ q))[k]? = (p ++ (t ++ q))[k]? := by
  rw [append_get h, append_get h]

theorem dropA {k : Nat} (h : Aft line p t k) : (p ++ (t' ++ q)).drop (f line p t t' k) = (p ++ (t ++ q)).drop k := by
  rw [f_aft h]
  have := h.1
  have e : ∀ (s : Bytes) j, (p ++ (s ++ q)).drop (p.length + s.length + j) = q.drop j := fun s j => by
    rw [← List.append_assoc, ← List.length_append, List.drop_length_add_append]
  have h1 := e t (k - p.length - t.length)
  have h2 := e t' (k - p.length - t.length)
  rw [show p.length + t.length + (k - p.length - t.length) = k by omega] at h1
  rw [show p.length + t'.length + (k - p.length - t.length) = k + t'.length - t.length by omega] at h2
  rw [h1, h2]

theorem getA {k : Nat} (h : Aft line p t k) : (p ++ (t' ++ q))[f line p t t' k]? = (p ++ (t ++ q))[k]? := by
  have := congrArg List.head? (dropA (t' := t') (q := q) h)
  rwa [List.head?_drop, List.head?_drop] at this

theorem sliceB {a b : Nat} (h : b ≤ p.length) : slice (p ++ (t' ++ q)) a b = slice (p ++ (t ++ q)) a b := by
  rw [append_slice h, append_slice h]

theorem sliceA {a b : Nat} (h : Aft line p t a) (hb : a ≤ b) : slice (p ++ (t' ++ q)) (f line p t t' a) (f line p t t' b) = slice (p ++ (t ++ q)) a b := by
  unfold slice
  have h2 := h.up hb
  rw [dropA h, f_aft h, f_aft h2]
  have := h.1
  rw [show b + t'.length - t.length - (a + t'.length - t.length) = b - a by omega]

theorem lenF : f line p t t' (p ++ (t ++ q)).length = (p ++ (t' ++ q)).length ∨ line = false ∧ t = [] ∧ q = [] := by
  unfold f
  split
  · next h =>
    have := h.le
    simp only [List.length_append] at this ⊢
    have h1 : t.length = 0 := by omega
    have h2 : q.length = 0 := by omega
    unfold Bef at h
    simp only [List.length_append] at h
    refine .inr ⟨?_, List.length_eq_zero_iff.1 h1, List.length_eq_zero_iff.1 h2⟩
    rcases h with h | h
    · omega
    · exact h.1
  · simp only [List.length_append]
    exact .inl (by omega)

variable (H : Swap line p t t' q)
include H

theorem qne (h : line = false) : ∃ r, q = NL :: r := by
  have := (H.ends h).1
  cases q with
  | nil => cases this
  | cons b r => cases this; exact ⟨r, rfl⟩

theorem len : f line p t t' (p ++ (t ++ q)).length = (p ++ (t' ++ q)).length := by
  rcases lenF (line := line) (p := p) (t := t) (t' := t') (q := q) with h | ⟨h, -, rfl⟩
  · exact h
  · obtain ⟨r, hr⟩ := H.qne h
    cases hr

/-- At the end of a line there is white space before and after the exchange. -/
theorem wsAt (h : line = false) : ∃ b, (p ++ (t ++ q))[p.length]? = some b ∧ isWs b = true := by
  obtain ⟨r, rfl⟩ := H.qne h
  rw [List.getElem?_append_right (Nat.le_refl _), Nat.sub_self]
  cases t with
  | nil => exact ⟨NL, rfl, by decide⟩
  | cons b t =>
    rcases (H.ends h).2.2.2.1 with h | h
    · cases h
    · exact ⟨b, rfl, h⟩

theorem notWs {k : Nat} (hk : isWs ((p ++ (t ++ q)).getD k 0) = false) : ¬ (line = false ∧ k = p.length) := by
  rintro ⟨hl, rfl⟩
  obtain ⟨b, hb, hw⟩ := H.wsAt hl
  rw [List.getD_eq_getElem?_getD, hb] at hk
  simp [hw] at hk

/-- A position without white space. -/
theorem aft {k : Nat} (hk : isWs ((p ++ (t ++ q)).getD k 0) = false) (h : p.length + t.length ≤ k) : Aft line p t k := by
  refine ⟨h, fun hl hm => ?_⟩
  obtain ⟨r, rfl⟩ := H.qne hl
  rw [hm, List.getD_eq_getElem?_getD, ← List.append_assoc, ← List.length_append, List.getElem?_append_right (Nat.le_refl _), Nat.sub_self] at hk
  exact absurd (show isWs NL = false from hk) (by decide)

theorem bef_lt {k : Nat} (hk : isWs ((p ++ (t ++ q)).getD k 0) = false) (h : Bef line p k) : k < p.length := by
  rcases h with h | h
  · exact h
  · exact absurd h (H.notWs hk)

/-- What is not white space is not at the end of `p`, if lines are exchanged. -/
theorem next {k : Nat} {b : UInt8} (hk : (p ++ (t ++ q))[k]? = some b) (hb : isWs b = false) (h : Bef line p k ∨ Aft line p t k) :
    (Bef line p (k + 1) ∨ Aft line p t (k + 1)) ∧ f line p t t' (k + 1) = f line p t t' k + 1 := by
  rcases h with h | h
  · have hlt := H.bef_lt (k := k) (by rw [List.getD_eq_getElem?_getD, hk]; exact hb) h
    have : Bef line p (k + 1) := by
      rcases Nat.lt_or_ge (k + 1) p.length with h1 | h1
      · exact .inl h1
      · cases hl : line with
        | false => exact .inr ⟨rfl, by omega⟩
        | true =>
          exfalso
          rcases (H.lines hl).1 with h2 | h2
          · rw [h2] at hlt; cases hlt
          · rw [List.getLast?_eq_getElem?, show p.length - 1 = k by omega] at h2
            rw [append_get hlt, h2] at hk
            cases hk
            exact absurd hb (by decide)
    exact ⟨.inl this, by rw [f_bef this, f_bef h]⟩
  · have := h.up (Nat.le_succ k)
    refine ⟨.inr this, ?_⟩
    rw [f_aft this, f_aft h]
    have := h.1
    omega

theorem get {k : Nat} (hk : isWs ((p ++ (t ++ q)).getD k 0) = false) (h : Bef line p k ∨ Aft line p t k) :
    (p ++ (t' ++ q))[f line p t t' k]? = (p ++ (t ++ q))[k]? := by
  rcases h with h | h
  · rw [f_bef h]
    exact getB (H.bef_lt hk h)
  · exact getA h

theorem getD {k : Nat} (hk : isWs ((p ++ (t ++ q)).getD k 0) = false) (h : Bef line p k ∨ Aft line p t k) :
    (p ++ (t' ++ q)).getD (f line p t t' k) 0 = (p ++ (t ++ q)).getD k 0 := by
  rw [List.getD_eq_getElem?_getD, List.getD_eq_getElem?_getD, H.get hk h]

/-- In general the byte is the same, or there is white space before and after. -/
theorem getWs {k : Nat} (h : Bef line p k ∨ Aft line p t k) : (p ++ (t' ++ q)).getD (f line p t t' k) 0 = (p ++ (t ++ q)).getD k 0 ∨
    isWs ((p ++ (t' ++ q)).getD (f line p t t' k) 0) = true ∧ isWs ((p ++ (t ++ q)).getD k 0) = true := by
  rcases h with h | h
  · rw [f_bef h]
    rcases Nat.lt_or_ge k p.length with h1 | h1
    · left
      rw [List.getD_eq_getElem?_getD, List.getD_eq_getElem?_getD, getB h1]
    · have hl : line = false ∧ k = p.length := by
        rcases h with h | h
        · omega
        · exact h
      obtain ⟨hl, rfl⟩ := hl
      obtain ⟨b, hb, hw⟩ := H.wsAt hl
      obtain ⟨b', hb', hw'⟩ := H.symm.wsAt hl
      right
      rw [List.getD_eq_getElem?_getD, List.getD_eq_getElem?_getD, hb, hb']
      exact ⟨hw', hw⟩
  · left
    rw [List.getD_eq_getElem?_getD, List.getD_eq_getElem?_getD, getA h]

/-! ### White space -/

theorem wsEndB {a : Nat} (ha : a ≤ p.length) : (Verif.wsEnd (p ++ (t ++ q)) a < p.length ∧ Verif.wsEnd (p ++ (t' ++ q)) a = Verif.wsEnd (p ++ (t ++ q)) a) ∨
    (Aft line p t (Verif.wsEnd (p ++ (t ++ q)) a) ∧ Verif.wsEnd (p ++ (t' ++ q)) a = Verif.wsEnd (p ++ (t ++ q)) a + t'.length - t.length) := by
  have hr : ∀ s : Bytes, (line = false → NL ∉ s) → q.head? = some NL ∧ NL ∉ s ∨ (p.drop a = [] ∧ false = false ∨ (p.drop a).getLast? = some NL) := fun s hs => by
    cases hl : line with
    | false => exact .inl ⟨(H.ends hl).1, hs hl⟩
    | true =>
      right
      rcases Nat.lt_or_ge a p.length with h1 | h1
      · rcases (H.lines hl).1 with h | h
        · rw [h] at h1; cases h1
        · right
          rw [List.getLast?_drop, if_neg (by omega)]
          exact h
      · exact .inl ⟨List.drop_eq_nil_iff.2 h1, rfl⟩
  have h1 := wsGo_mid (q := q) H.blank (by
    cases hl : line with
    | false => exact .inl ⟨(H.ends hl).1, (H.ends hl).2.1⟩
    | true => exact .inr (H.lines hl).2.1) (c := false) (r := p.drop a) (hr t fun hl => (H.ends hl).2.1)
  have h2 := wsGo_mid (q := q) H.blank' (by
    cases hl : line with
    | false => exact .inl ⟨(H.ends hl).1, (H.ends hl).2.2.1⟩
    | true => exact .inr (H.lines hl).2.2) (c := false) (r := p.drop a) (hr t' fun hl => (H.ends hl).2.2.1)
  unfold Verif.wsEnd
  rw [List.drop_append_of_le_length ha, List.drop_append_of_le_length ha, h1, h2]
  have := (wsGo_spec false (p.drop a)).1
  rw [List.length_drop] at this ⊢
  by_cases hc : (wsGo false (p.drop a)).1 = p.length - a
  · right
    rw [if_pos hc, if_pos hc]
    refine ⟨⟨by omega, ?_⟩, by omega⟩
    intro h h'
    obtain ⟨r, rfl⟩ := H.qne h
    have : (wsGo false (NL :: r)).1 = (wsGo false r).1 + 1 := rfl
    omega
  · left
    rw [if_neg hc, if_neg hc]
    omega

theorem gap {a b : Nat} (ha : Bef line p a ∨ Aft line p t a) (h : FullGap (p ++ (t ++ q)) a b) :
    (Bef line p b ∨ Aft line p t b) ∧ isWs ((p ++ (t ++ q)).getD b 0) = false ∧ FullGap (p ++ (t' ++ q)) (f line p t t' a) (f line p t t' b) := by
  have hl := h.le
  have hlen := H.len
  refine (⟨?_, h.2.1, ?_⟩ : _ ∧ _ ∧ _)
  · rcases ha with ha | ha
    · rcases H.wsEndB ha.le with ⟨h1, -⟩ | ⟨h1, -⟩
      · rw [h.eq] at h1; exact .inl (.inl h1)
      · rw [h.eq] at h1; exact .inr h1
    · exact .inr (ha.up hl.1)
  · rcases ha with ha | ha
    · rw [f_bef ha]
      have hle : a ≤ (p ++ (t' ++ q)).length := by rw [List.length_append]; have := ha.le; omega
      rcases H.wsEndB ha.le with ⟨h1, h2⟩ | ⟨h1, h2⟩
      · rw [h.eq] at h1 h2
        rw [f_bef (.inl h1), ← h2]
        exact FullGap.ws hle
      · rw [h.eq] at h1 h2
        rw [f_aft h1, ← h2]
        exact FullGap.ws hle
    · have hb := ha.up hl.1
      have hw : wsEnd (p ++ (t' ++ q)) (f line p t t' a) = f line p t t' b := by
        have := h.eq
        unfold wsEnd at this ⊢
        rw [dropA ha, f_aft ha, f_aft hb]
        have := ha.1
        omega
      rw [← hw]
      refine FullGap.ws ?_
      rw [f_aft ha]
      have := ha.1
      simp only [List.length_append] at hl ⊢
      omega

/-! ### Columns -/

omit H in
theorem column_after {u w : Bytes} (hu : u = [] ∨ u.getLast? = some NL) : ((u ++ w).reverse.takeWhile (· != NL)) = w.reverse.takeWhile (· != NL) := by
  rw [List.reverse_append]
  generalize w.reverse = r
  induction r with
  | nil =>
    rcases hu with rfl | hu
    · rfl
    · obtain ⟨a, rfl⟩ := List.getLast?_eq_some_iff.1 hu
      rw [List.reverse_append]
      rfl
  | cons b r ih => rw [List.cons_append, List.takeWhile_cons, List.takeWhile_cons, ih]

theorem column {k : Nat} (h : Bef line p k ∨ Aft line p t k) :
    columnAt (p ++ (t' ++ q)) (f line p t t' k) = columnAt (p ++ (t ++ q)) k := by
  rcases h with h | h
  · rw [f_bef h, append_column h.le, append_column h.le]
  · unfold columnAt
    rw [f_aft h]
    have h1 := h.1
    have e : ∀ (s : Bytes) j, (p ++ (s ++ q)).take (p.length + s.length + j) = (p ++ s) ++ q.take j := fun s j => by
      rw [← List.append_assoc, ← List.length_append, List.take_length_add_append]
    have e1 := e t (k - p.length - t.length)
    have e2 := e t' (k - p.length - t.length)
    rw [show p.length + t.length + (k - p.length - t.length) = k by omega] at e1
    rw [show p.length + t'.length + (k - p.length - t.length) = k + t'.length - t.length by omega] at e2
    rw [e1, e2]
    cases hl : line with
    | true =>
      obtain ⟨h2, h3, h4⟩ := H.lines hl
      have hu : ∀ s : Bytes, (s = [] ∨ s.getLast? = some NL) → p ++ s = [] ∨ (p ++ s).getLast? = some NL := fun s hs => by
        rcases hs with rfl | hs
        · rw [List.append_nil]; exact h2
        · right
          rw [List.getLast?_append, hs]
          rfl
      rw [column_after (hu t h3), column_after (hu t' h4)]
    | false =>
      obtain ⟨r, rfl⟩ := H.qne hl
      have hj : k - p.length - t.length ≠ 0 := by have := h.2 hl; omega
      obtain ⟨j, hj⟩ : ∃ j, k - p.length - t.length = j + 1 := ⟨_, (Nat.succ_pred_eq_of_ne_zero hj).symm⟩
      rw [hj, List.take_succ_cons]
      have e3 : ∀ s : Bytes, (p ++ s) ++ NL :: r.take j = (p ++ s ++ [NL]) ++ r.take j := fun s => by simp
      rw [e3, e3, column_after (.inr (by simp)), column_after (.inr (by simp))]

end Swap
end Verif
