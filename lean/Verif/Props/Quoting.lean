import Verif.Utf8
import Verif.Props.Samples
/-
C28: the representation `set_string`, `insert_str` and `push_string` choose.
-/
namespace Verif

/-- A control character: below U+0020, U+007F, or U+0080 to U+009F. -/
def hasControl (s : Bytes) : Bool :=
  s.any (fun b => b < 0x20 || b == 0x7F) ||
  (chars s).any fun c => match c with | [b0, b1] => b0 == 0xC2 && 0x80 ≤ b1 && b1 ≤ 0x9F | _ => false

/-- Does the string start with an ASCII digit? -/
def startsWithDigit (s : Bytes) : Bool := match s with | b :: _ => 48 ≤ b && b ≤ 57 | [] => false

/-- The documented choice: double quotes for single quotes and control characters, single quotes
for digits at the start, colons and the keywords, otherwise none. -/
def preferred (s : Bytes) : StringKind :=
  if s.contains SQ || hasControl s then .double
  else if startsWithDigit s || s.contains COLON || s == b! "true" || s == b! "false" || s == b! "null" then .single
  else .bare

def digitChar (c : Bytes) : Bool := match c with | [b] => isDigit b | _ => false

theorem detectGo_eq : ∀ (cs : List Bytes) (first : Bool) (kind : StrKind), detectGo first kind cs =
    if cs.any (fun c => c == [SQ] || isControlChar c) then .double
    else if (first && (match cs with | [b] :: _ => isDigit b | _ => false)) || cs.any (· == [COLON]) then .single
    else kind
  | [], first, kind => by simp [detectGo]
  | c :: cs, first, kind => by
    have hd : detectGo first kind (c :: cs) = if first && digitChar c then detectGo false .single cs
        else if c == [SQ] then .double
        else if c == [COLON] then detectGo false .single cs
        else if isControlChar c then .double
        else detectGo false kind cs := rfl
    rw [hd]
    by_cases h1 : (first && digitChar c) = true
    · rw [if_pos h1, detectGo_eq cs false .single]
      obtain ⟨rfl, b, rfl, hb⟩ : first = true ∧ ∃ b, c = [b] ∧ isDigit b = true := by
        rw [Bool.and_eq_true] at h1
        refine ⟨h1.1, ?_⟩
        cases c with
        | nil => simp [digitChar] at h1
        | cons b t => cases t with
          | nil => exact ⟨b, rfl, h1.2⟩
          | cons => simp [digitChar] at h1
      have hq : ([b] == [SQ]) = false := by
        simp only [beq_eq_false_iff_ne, ne_eq, List.cons.injEq, and_true]
        rintro rfl; revert hb; decide
      have hc : isControlChar [b] = false := by
        simp only [isDigit, Bool.and_eq_true, decide_eq_true_eq, UInt8.le_iff_toNat_le] at hb
        simp only [isControlChar, Bool.or_eq_false_iff, decide_eq_false_iff_not, UInt8.lt_iff_toNat_lt, beq_eq_false_iff_ne, ne_eq]
        constructor
        · simp at *; omega
        · rintro rfl; simp at hb
      simp [hq, hc, hb]
    · rw [if_neg h1]
      have h1' : (first && (match c :: cs with | [b] :: _ => isDigit b | _ => false)) = false := by
        have : (match c :: cs with | [b] :: _ => isDigit b | _ => false) = digitChar c := by
          cases c with
          | nil => rfl
          | cons b t => cases t <;> rfl
        rw [this]; simpa using h1
      simp only [h1', List.any_cons, Bool.false_or]
      by_cases h2 : (c == [SQ]) = true
      · simp [h2]
      · have h2' : (c == [SQ]) = false := by simpa using h2
        rw [if_neg h2]
        by_cases h3 : (c == [COLON]) = true
        · have hc : isControlChar c = false := by rw [eq_of_beq h3]; rfl
          rw [if_pos h3, detectGo_eq cs false .single]
          simp [h2', h3, hc]
        · have h3' : (c == [COLON]) = false := by simpa using h3
          rw [if_neg h3]
          by_cases h4 : isControlChar c = true
          · simp [h4]
          · have h4' : isControlChar c = false := by simpa using h4
            rw [if_neg h4, detectGo_eq cs false kind]
            simp [h2', h3', h4']

theorem any_control (s : Bytes) : (chars s).any (fun c => c == [SQ] || isControlChar c) = (s.contains SQ || hasControl s) := by
  rw [Bool.eq_iff_iff]
  simp only [hasControl, List.any_eq_true, Bool.or_eq_true, beq_iff_eq, List.contains_iff_mem]
  have low : ∀ b : UInt8, (decide (b < 0x20) = true ∨ b = 0x7F) → b < 0x80 := by
    intro b h
    rcases h with h | rfl
    · simp only [decide_eq_true_eq] at h
      exact UInt8.lt_trans h (by decide)
    · decide
  constructor
  · rintro ⟨c, hc, rfl | h⟩
    · exact .inl ((mem_chars (by decide) s).1 hc)
    · unfold isControlChar at h
      split at h
      · next b =>
        simp only [Bool.or_eq_true, beq_iff_eq] at h
        exact .inr (.inl ⟨b, (mem_chars (low b h) s).1 hc, h⟩)
      · next b0 b1 => exact .inr (.inr ⟨_, hc, h⟩)
      · cases h
  · rintro (h | ⟨b, hb, h⟩ | ⟨c, hc, h⟩)
    · exact ⟨[SQ], (mem_chars (by decide) s).2 h, .inl rfl⟩
    · exact ⟨[b], (mem_chars (low b h) s).2 hb, .inr (by simpa [isControlChar] using h)⟩
    · refine ⟨c, hc, .inr ?_⟩
      split at h
      · exact h
      · cases h

theorem any_colon (s : Bytes) : (chars s).any (· == [COLON]) = s.contains COLON := by
  rw [Bool.eq_iff_iff]
  simp only [List.any_eq_true, beq_iff_eq, List.contains_iff_mem, exists_eq_right]
  exact mem_chars (by decide) s

theorem first_digit (s : Bytes) : (match chars s with | [b] :: _ => isDigit b | _ => false) = startsWithDigit s := by
  cases s with
  | nil => rfl
  | cons b r =>
    by_cases hb : b < 0x80
    · rw [chars_ascii hb]; rfl
    · have hs := decodeHead_step b r
      have : startsWithDigit (b :: r) = false := by
        simp only [startsWithDigit, Bool.and_eq_false_iff, decide_eq_false_iff_not]
        right; intro h; exact hb (UInt8.lt_of_le_of_lt h (by decide))
      rw [this, chars_cons]
      split
      · next b' _ h =>
        rw [List.cons.injEq] at h
        exfalso
        have h := h.1
        split at h
        · next hok =>
          have h2 := hs.more hb hok
          have h3 := hs.le
          cases r with
          | nil => simp at h3; omega
          | cons b1 r =>
            obtain ⟨n, hn⟩ : ∃ n, (decodeHead (b :: b1 :: r)).2 - 1 = n + 1 :=
              ⟨(decodeHead (b :: b1 :: r)).2 - 2, by omega⟩
            rw [hn] at h; simp at h
        · simp [replacement] at h
      · rfl

/-- The source's `StringKind` for a choice. -/
theorem detect_eq (s : Bytes) : detect s = (match preferred s with | .bare => .bare | .single => .single | .double => .double) := by
  unfold detect preferred
  by_cases hw : (s == b! "true" || s == b! "false" || s == b! "null") = true
  · rw [if_pos hw]
    simp only [Bool.or_eq_true, beq_iff_eq] at hw
    rcases hw with (rfl | rfl) | rfl <;> decide
  · rw [if_neg hw, detectGo_eq, any_control, any_colon, first_digit]
    simp only [Bool.not_eq_true, Bool.or_eq_false_iff] at hw
    simp only [hw.1.1, hw.1.2, hw.2, Bool.or_false, Bool.true_and]
    by_cases h1 : (s.contains SQ || hasControl s) = true
    · rw [if_pos h1, if_pos h1]
    · rw [if_neg h1, if_neg h1]
      by_cases h2 : (startsWithDigit s || s.contains COLON) = true
      · rw [if_pos h2, if_pos h2]
      · rw [if_neg h2, if_neg h2]

/-- C28: `set_string` is `set_string_with` and the documented choice. -/
theorem C28_set_string (d : Data) (x : Nat) (s : Bytes) : setString d x s = setStringWith d x s (preferred s) := by
  unfold setString setStringWith newString newStringWith
  rw [detect_eq]
  cases preferred s <;> rfl

example : preferred (b! "a'b") = .double ∧ preferred (b! "a\nb") = .double ∧ preferred [0xC2, 0x85] = .double ∧
    preferred (b! "1a") = .single ∧ preferred (b! "a: b") = .single ∧ preferred (b! "null") = .single ∧
    preferred (b! "hello") = .bare := by decide

end Verif
