import Verif.Lossy
/-
What it means to replace what is not UTF-8, said with Lean's own encoder, and that the decoder does that.
-/
namespace Verif

/-- The text is the encoding of these characters. -/
def encode (cs : List Char) : Bytes := cs.flatMap String.utf8EncodeChar

/-- `p` with `r` after it is a maximal part that is not UTF-8: no character starts there, `p` is one byte or the start of a character, and with more of `r` it is not. -/
def BadPart (p r : Bytes) : Prop := p ≠ [] ∧ (∀ c, ¬ String.utf8EncodeChar c <+: p ++ r) ∧ (p.length = 1 ∨ ∃ c, p <+: String.utf8EncodeChar c) ∧
  ∀ b, [b] <+: r → ∀ c, ¬ p ++ [b] <+: String.utf8EncodeChar c

/-- The text read as characters, with U+FFFD for every maximal part that is not UTF-8. -/
inductive Replaced : Bytes → List Char → Prop
  | nil : Replaced [] []
  | char {r : Bytes} {cs : List Char} (c : Char) : Replaced r cs → Replaced (String.utf8EncodeChar c ++ r) (c :: cs)
  | broken {p r : Bytes} {cs : List Char} : BadPart p r → Replaced r cs → Replaced (p ++ r) (Char.ofNat 0xFFFD :: cs)

/-- How the encoding of a character looks. -/
inductive Form : Bytes → Prop
  | one {b : UInt8} : b < 0x80 → Form [b]
  | two {b b1 : UInt8} : ¬ b < 0x80 → seqLen b = 2 → secondOk b b1 = true → Form [b, b1]
  | three {b b1 b2 : UInt8} : ¬ b < 0x80 → seqLen b = 3 → secondOk b b1 = true → isCont b2 = true → Form [b, b1, b2]
  | four {b b1 b2 b3 : UInt8} : ¬ b < 0x80 → seqLen b = 4 → secondOk b b1 = true → isCont b2 = true → isCont b3 = true → Form [b, b1, b2, b3]

theorem seqLen_two {b : UInt8} : seqLen b = 2 ↔ 0xC2 ≤ b.toNat ∧ b.toNat ≤ 0xDF := by
  simp only [seqLen, Bool.and_eq_true, decide_eq_true_eq, UInt8.le_iff_toNat_le, UInt8.reduceToNat]
  repeat' split
  all_goals omega

theorem seqLen_three {b : UInt8} : seqLen b = 3 ↔ 0xE0 ≤ b.toNat ∧ b.toNat ≤ 0xEF := by
  simp only [seqLen, Bool.and_eq_true, decide_eq_true_eq, UInt8.le_iff_toNat_le, UInt8.reduceToNat]
  repeat' split
  all_goals omega

theorem seqLen_four {b : UInt8} : seqLen b = 4 ↔ 0xF0 ≤ b.toNat ∧ b.toNat ≤ 0xF4 := by
  simp only [seqLen, Bool.and_eq_true, decide_eq_true_eq, UInt8.le_iff_toNat_le, UInt8.reduceToNat]
  repeat' split
  all_goals omega

theorem isCont_iff {b : UInt8} : isCont b = true ↔ 0x80 ≤ b.toNat ∧ b.toNat ≤ 0xBF := by
  simp only [isCont, Bool.and_eq_true, decide_eq_true_eq, UInt8.le_iff_toNat_le, UInt8.reduceToNat]

theorem secondOk_iff {b b1 : UInt8} : secondOk b b1 = true ↔ 0x80 ≤ b1.toNat ∧ b1.toNat ≤ 0xBF ∧ (b.toNat = 0xE0 → 0xA0 ≤ b1.toNat) ∧ (b.toNat = 0xED → b1.toNat ≤ 0x9F) ∧
    (b.toNat = 0xF0 → 0x90 ≤ b1.toNat) ∧ (b.toNat = 0xF4 → b1.toNat ≤ 0x8F) := by
  simp only [secondOk, beq_iff_eq, ← UInt8.toNat_inj, UInt8.reduceToNat]
  repeat' split
  all_goals simp only [isCont, Bool.and_eq_true, decide_eq_true_eq, UInt8.le_iff_toNat_le, UInt8.reduceToNat]
  all_goals omega

theorem ascii_iff {b : UInt8} : b < 0x80 ↔ b.toNat < 0x80 := by rw [UInt8.lt_iff_toNat_lt]; rfl

theorem byteOf (n : Nat) : (UInt8.ofNat n).toNat = n % 256 := UInt8.toNat_ofNat'

theorem encode_form (c : Char) : Form (String.utf8EncodeChar c) := by
  have hv : c.val.toNat < 0xd800 ∨ 0xdfff < c.val.toNat ∧ c.val.toNat < 0x110000 := c.valid
  unfold String.utf8EncodeChar
  generalize c.val.toNat = v at hv
  simp only
  repeat' split
  · exact .one (by rw [ascii_iff, byteOf]; omega)
  · exact .two (by rw [ascii_iff, byteOf]; omega) (by rw [seqLen_two, byteOf]; omega) (by simp only [secondOk_iff, byteOf]; omega)
  · exact .three (by rw [ascii_iff, byteOf]; omega) (by rw [seqLen_three, byteOf]; omega) (by simp only [secondOk_iff, byteOf]; omega)
      (by rw [isCont_iff, byteOf]; omega)
  · exact .four (by rw [ascii_iff, byteOf]; omega) (by rw [seqLen_four, byteOf]; omega) (by simp only [secondOk_iff, byteOf]; omega)
      (by rw [isCont_iff, byteOf]; omega) (by rw [isCont_iff, byteOf]; omega)

theorem char_of {v : Nat} (h : v < 0xd800 ∨ 0xdfff < v ∧ v < 0x110000) : ∃ c : Char, c.val.toNat = v := by
  have e : (UInt32.ofNat v).toNat = v := UInt32.toNat_ofNat_of_lt (by show v < 4294967296; omega)
  exact ⟨⟨UInt32.ofNat v, by show (UInt32.ofNat v).toNat.isValidChar; rw [e]; exact h⟩, e⟩

theorem byte_eq {b : UInt8} {n : Nat} (h : b.toNat = n) : UInt8.ofNat n = b := by rw [← h]; simp

theorem form_encode {s : Bytes} (h : Form s) : ∃ c, String.utf8EncodeChar c = s := by
  cases h with
  | @one b h =>
    rw [ascii_iff] at h
    obtain ⟨c, hc⟩ := char_of (v := b.toNat) (by omega)
    refine ⟨c, ?_⟩
    simp only [String.utf8EncodeChar, hc]
    rw [if_pos (by omega), byte_eq rfl]
  | @two b b1 h h1 h2 =>
    rw [seqLen_two] at h1
    rw [secondOk_iff] at h2
    obtain ⟨c, hc⟩ := char_of (v := (b.toNat - 0xC0) * 64 + (b1.toNat - 0x80)) (by omega)
    refine ⟨c, ?_⟩
    simp only [String.utf8EncodeChar, hc]
    rw [if_neg (by omega), if_pos (by omega), byte_eq (b := b) (by omega), byte_eq (b := b1) (by omega)]
  | @three b b1 b2 h h1 h2 h3 =>
    rw [seqLen_three] at h1
    rw [secondOk_iff] at h2
    rw [isCont_iff] at h3
    obtain ⟨c, hc⟩ := char_of (v := (b.toNat - 0xE0) * 4096 + (b1.toNat - 0x80) * 64 + (b2.toNat - 0x80)) (by omega)
    refine ⟨c, ?_⟩
    simp only [String.utf8EncodeChar, hc]
    rw [if_neg (by omega), if_neg (by omega), if_pos (by omega), byte_eq (b := b) (by omega), byte_eq (b := b1) (by omega), byte_eq (b := b2) (by omega)]
  | @four b b1 b2 b3 h h1 h2 h3 h4 =>
    rw [seqLen_four] at h1
    rw [secondOk_iff] at h2
    rw [isCont_iff] at h3 h4
    obtain ⟨c, hc⟩ := char_of (v := (b.toNat - 0xF0) * 262144 + (b1.toNat - 0x80) * 4096 + (b2.toNat - 0x80) * 64 + (b3.toNat - 0x80)) (by omega)
    refine ⟨c, ?_⟩
    simp only [String.utf8EncodeChar, hc]
    rw [if_neg (by omega), if_neg (by omega), if_neg (by omega), byte_eq (b := b) (by omega), byte_eq (b := b1) (by omega), byte_eq (b := b2) (by omega),
      byte_eq (b := b3) (by omega)]

theorem form_decode {s : Bytes} (h : Form s) (r : Bytes) : decodeHead (s ++ r) = (true, s.length) := by
  cases h with
  | one h => simp [decodeHead, h]
  | two h h1 h2 => simp only [List.cons_append, decodeHead, if_neg h, h1, h2, if_true]; rfl
  | three h h1 h2 h3 => simp only [List.cons_append, decodeHead, if_neg h, h1, h2, h3, Bool.not_true, Bool.false_eq_true, if_false, if_true]; rfl
  | four h h1 h2 h3 h4 => simp only [List.cons_append, decodeHead, if_neg h, h1, h2, h3, h4, Bool.not_true, Bool.false_eq_true, if_false, if_true]; rfl

theorem form_ne {s : Bytes} (h : Form s) : s ≠ [] := by cases h <;> simp

/-- What the decoder sees at a byte. -/
inductive Dec (b : UInt8) : Bytes → Bool → Nat → Prop
  | one {r : Bytes} : b < 0x80 → Dec b r true 1
  | none {r : Bytes} : ¬ b < 0x80 → seqLen b = 0 → Dec b r false 1
  | short {r : Bytes} : ¬ b < 0x80 → (∀ c r', r = c :: r' → secondOk b c = false) → Dec b r false 1
  | two {b1 : UInt8} {r : Bytes} : ¬ b < 0x80 → seqLen b = 2 → secondOk b b1 = true → Dec b (b1 :: r) true 2
  | cut2 {b1 : UInt8} {r : Bytes} : ¬ b < 0x80 → seqLen b = 3 ∨ seqLen b = 4 → secondOk b b1 = true → (∀ c r', r = c :: r' → isCont c = false) → Dec b (b1 :: r) false 2
  | three {b1 b2 : UInt8} {r : Bytes} : ¬ b < 0x80 → seqLen b = 3 → secondOk b b1 = true → isCont b2 = true → Dec b (b1 :: b2 :: r) true 3
  | cut3 {b1 b2 : UInt8} {r : Bytes} : ¬ b < 0x80 → seqLen b = 4 → secondOk b b1 = true → isCont b2 = true → (∀ c r', r = c :: r' → isCont c = false) →
    Dec b (b1 :: b2 :: r) false 3
  | four {b1 b2 b3 : UInt8} {r : Bytes} : ¬ b < 0x80 → seqLen b = 4 → secondOk b b1 = true → isCont b2 = true → isCont b3 = true → Dec b (b1 :: b2 :: b3 :: r) true 4

theorem decode_dec (b : UInt8) (r : Bytes) : Dec b r (decodeHead (b :: r)).1 (decodeHead (b :: r)).2 := by
  by_cases hb : b < 0x80
  · simp only [decodeHead, if_pos hb]; exact .one hb
  have hl : seqLen b = 0 ∨ seqLen b = 2 ∨ seqLen b = 3 ∨ seqLen b = 4 := by
    unfold seqLen; repeat' split
    all_goals simp
  rcases r with _ | ⟨b1, r⟩
  · rcases hl with hl | hl | hl | hl <;> simp only [decodeHead, if_neg hb, hl] <;> exact .short hb (by simp)
  rcases hl with hl | hl
  · simp only [decodeHead, if_neg hb, hl]; exact .none hb hl
  cases h1 : secondOk b b1 with
  | false =>
    have : decodeHead (b :: b1 :: r) = (false, 1) := by rcases hl with hl | hl | hl <;> simp [decodeHead, hb, hl, h1]
    rw [this]
    exact .short hb (by rintro c r' ⟨⟩; exact h1)
  | true =>
    rcases hl with hl | hl
    · simp only [decodeHead, if_neg hb, hl, h1, if_true]; exact .two hb hl h1
    rcases r with _ | ⟨b2, r⟩
    · have : decodeHead [b, b1] = (false, 2) := by rcases hl with hl | hl <;> simp [decodeHead, hb, hl, h1]
      rw [this]
      exact .cut2 hb hl h1 (by simp)
    cases h2 : isCont b2 with
    | false =>
      have : decodeHead (b :: b1 :: b2 :: r) = (false, 2) := by rcases hl with hl | hl <;> simp [decodeHead, hb, hl, h1, h2]
      rw [this]
      exact .cut2 hb hl h1 (by rintro c r' ⟨⟩; exact h2)
    | true =>
      rcases hl with hl | hl
      · have : decodeHead (b :: b1 :: b2 :: r) = (true, 3) := by simp [decodeHead, hb, hl, h1, h2]
        rw [this]
        exact .three hb hl h1 h2
      rcases r with _ | ⟨b3, r⟩
      · have : decodeHead [b, b1, b2] = (false, 3) := by simp [decodeHead, hb, hl, h1, h2]
        rw [this]
        exact .cut3 hb hl h1 h2 (by simp)
      cases h3 : isCont b3 with
      | false =>
        have : decodeHead (b :: b1 :: b2 :: b3 :: r) = (false, 3) := by simp [decodeHead, hb, hl, h1, h2, h3]
        rw [this]
        exact .cut3 hb hl h1 h2 (by rintro c r' ⟨⟩; exact h3)
      | true =>
        have : decodeHead (b :: b1 :: b2 :: b3 :: r) = (true, 4) := by simp [decodeHead, hb, hl, h1, h2, h3]
        rw [this]
        exact .four hb hl h1 h2 h3

theorem Dec.form {b : UInt8} {r : Bytes} {len : Nat} (h : Dec b r true len) : Form (b :: r.take (len - 1)) := by
  cases h with
  | one h => exact .one h
  | two h h1 h2 => exact .two h h1 h2
  | three h h1 h2 h3 => exact .three h h1 h2 h3
  | four h h1 h2 h3 h4 => exact .four h h1 h2 h3 h4

/-- What is not part of a character is seen to be that. -/
theorem Dec.more {b : UInt8} {r : Bytes} {len : Nat} (h : Dec b r false len) :
    (len = 1 ∨ ∃ s, Form s ∧ b :: r.take (len - 1) <+: s) ∧ ∀ x, [x] <+: r.drop (len - 1) → ∀ s, Form s → ¬ b :: r.take (len - 1) ++ [x] <+: s := by
  have hx : ∀ {x : UInt8} {l : Bytes}, [x] <+: l → ∃ r', l = x :: r' := by rintro x l ⟨r', rfl⟩; exact ⟨r', rfl⟩
  have h80 : isCont 0x80 = true := by decide
  cases h with
  | none h h1 =>
    refine ⟨.inl rfl, ?_⟩
    rintro x - s hs ⟨y, rfl⟩
    generalize hl : b :: r.take (1 - 1) ++ [x] ++ y = s at hs
    cases hs <;> simp at hl <;> (obtain ⟨rfl, -⟩ := hl; omega)
  | short h h1 =>
    refine ⟨.inl rfl, ?_⟩
    rintro x hxr s hs ⟨y, rfl⟩
    obtain ⟨r', hr⟩ := hx hxr
    have hf := h1 x r' hr
    generalize hl : b :: r.take (1 - 1) ++ [x] ++ y = s at hs
    cases hs with
    | one h => simp at hl
    | two _ _ h2 => simp at hl; obtain ⟨rfl, rfl, _⟩ := hl; rw [hf] at h2; cases h2
    | three _ _ h2 => simp at hl; obtain ⟨rfl, rfl, _⟩ := hl; rw [hf] at h2; cases h2
    | four _ _ h2 => simp at hl; obtain ⟨rfl, rfl, _⟩ := hl; rw [hf] at h2; cases h2
  | @cut2 b1 r h h1 h2 h3 =>
    constructor
    · refine .inr ?_
      rcases h1 with h1 | h1
      · exact ⟨[b, b1, 0x80], .three h h1 h2 h80, by simp⟩
      · exact ⟨[b, b1, 0x80, 0x80], .four h h1 h2 h80 h80, by simp⟩
    rintro x hxr s hs ⟨y, rfl⟩
    obtain ⟨r', hr⟩ := hx hxr
    have hf := h3 x r' hr
    generalize hl : b :: (b1 :: r).take (2 - 1) ++ [x] ++ y = s at hs
    cases hs with
    | one h => simp at hl
    | two _ _ h2 => simp at hl
    | three _ _ _ h2 => simp at hl; obtain ⟨rfl, rfl, rfl, _⟩ := hl; rw [hf] at h2; cases h2
    | four _ _ _ h2 => simp at hl; obtain ⟨rfl, rfl, rfl, _⟩ := hl; rw [hf] at h2; cases h2
  | @cut3 b1 b2 r h h1 h2 h3 h4 =>
    constructor
    · exact .inr ⟨[b, b1, b2, 0x80], .four h h1 h2 h3 h80, by simp⟩
    rintro x hxr s hs ⟨y, rfl⟩
    obtain ⟨r', hr⟩ := hx hxr
    have hf := h4 x r' hr
    generalize hl : b :: (b1 :: b2 :: r).take (3 - 1) ++ [x] ++ y = s at hs
    cases hs with
    | one h => simp at hl
    | two _ _ h2 => simp at hl
    | three _ _ _ h2 => simp at hl
    | four _ _ _ _ h2 => simp at hl; obtain ⟨rfl, rfl, rfl, rfl, _⟩ := hl; rw [hf] at h2; cases h2

theorem badPart_of {b : UInt8} {r : Bytes} (h : (decodeHead (b :: r)).1 = false) :
    BadPart (b :: r.take ((decodeHead (b :: r)).2 - 1)) (r.drop ((decodeHead (b :: r)).2 - 1)) := by
  have hd := decode_dec b r
  have hst := decodeHead_step b r
  rw [h] at hd
  have hj : b :: r.take ((decodeHead (b :: r)).2 - 1) ++ r.drop ((decodeHead (b :: r)).2 - 1) = b :: r := by simp
  refine ⟨by simp, ?_, ?_, fun x hx c => hd.more.2 x hx _ (encode_form c)⟩
  · rintro c ⟨y, hy⟩
    rw [hj] at hy
    rw [← hy, form_decode (encode_form c)] at h
    cases h
  · rcases hd.more.1 with h1 | ⟨s, h1, h2⟩
    · exact .inl (by rw [h1]; simp)
    · obtain ⟨c, rfl⟩ := form_encode h1
      exact .inr ⟨c, h2⟩

theorem lossy_cons (b : UInt8) (r : Bytes) : lossy (b :: r) = (if (decodeHead (b :: r)).1 then b :: r.take ((decodeHead (b :: r)).2 - 1) else replacement) ++
    lossy (r.drop ((decodeHead (b :: r)).2 - 1)) := by
  simp only [lossy]; rw [chars_cons]; rfl

/-- Every text can be read as characters. -/
theorem Replaced.total : ∀ s : Bytes, ∃ cs, Replaced s cs := by
  intro s
  induction hn : s.length using Nat.strongRecOn generalizing s with
  | ind n ih =>
    cases s with
    | nil => exact ⟨[], .nil⟩
    | cons b r =>
      obtain ⟨cs, h1⟩ := ih (r.drop ((decodeHead (b :: r)).2 - 1)).length (by simp at hn ⊢; omega) _ rfl
      have hj : b :: r.take ((decodeHead (b :: r)).2 - 1) ++ r.drop ((decodeHead (b :: r)).2 - 1) = b :: r := by simp
      cases hd : (decodeHead (b :: r)).1 with
      | true =>
        have := decode_dec b r
        rw [hd] at this
        obtain ⟨c, hc⟩ := form_encode this.form
        exact ⟨c :: cs, by rw [← hj, ← hc]; exact .char c h1⟩
      | false => exact ⟨Char.ofNat 0xFFFD :: cs, by rw [← hj]; exact .broken (badPart_of hd) h1⟩

theorem badPart_unique {p r p' r' : Bytes} (h : BadPart p r) (h' : BadPart p' r') (he : p ++ r = p' ++ r') : p = p' := by
  have key : ∀ {p r p' r' : Bytes}, BadPart p r → BadPart p' r' → p ++ r = p' ++ r' → p'.length ≤ p.length := by
    intro p r p' r' h h' he
    refine Nat.le_of_not_lt fun hlt => ?_
    obtain ⟨q, rfl⟩ : ∃ q, p' = p ++ q := by
      refine ⟨r.take (p'.length - p.length), ?_⟩
      have := congrArg (List.take p'.length) he
      rw [List.take_append, List.take_of_length_le (by omega), List.take_append, List.take_length, Nat.sub_self, List.take_zero, List.append_nil] at this
      exact this.symm
    rw [List.append_assoc, List.append_cancel_left_eq] at he
    cases q with
    | nil => simp at hlt
    | cons x q =>
      rcases h'.2.2.1 with h1 | ⟨c, h1⟩
      · have := List.length_pos_iff.2 h.1
        simp at h1; omega
      · refine h.2.2.2 x ⟨q ++ r', by rw [he]; simp⟩ c ?_
        obtain ⟨y, hy⟩ := h1
        exact ⟨q ++ y, by rw [← hy]; simp⟩
  have hl : p.length = p'.length := Nat.le_antisymm (key h' h he.symm) (key h h' he)
  exact (List.append_inj he hl).1

/-- `lossy` is the encoding of the text read as characters. -/
theorem Replaced.lossy {s : Bytes} {cs : List Char} (h : Replaced s cs) : lossy s = encode cs := by
  induction h with
  | nil => rfl
  | @char r cs c h ih =>
    have h1 := form_decode (encode_form c) r
    have hne := form_ne (encode_form c)
    show Verif.lossy (String.utf8EncodeChar c ++ r) = String.utf8EncodeChar c ++ encode cs
    cases hc : String.utf8EncodeChar c with
    | nil => exact absurd hc hne
    | cons b q =>
      rw [hc] at h1
      rw [List.cons_append] at h1 ⊢
      rw [lossy_cons, h1, if_pos rfl, ← ih]
      simp
  | @broken p r cs hb h ih =>
    show Verif.lossy (p ++ r) = replacement ++ encode cs
    cases p with
    | nil => exact absurd rfl hb.1
    | cons b q =>
      rw [List.cons_append, lossy_cons]
      cases hd : (decodeHead (b :: (q ++ r))).1 with
      | true =>
        have := decode_dec b (q ++ r)
        rw [hd] at this
        obtain ⟨c, hc⟩ := form_encode this.form
        refine absurd ?_ (hb.2.1 c)
        rw [hc]
        exact ⟨(q ++ r).drop ((decodeHead (b :: (q ++ r))).2 - 1), by simp⟩
      | false =>
        have h2 := badPart_of hd
        have h3 := badPart_unique hb h2 (by simp)
        rw [if_neg (by simp), ← ih]
        congr 2
        have h4 := congrArg List.length h3
        have h5 := congrArg (List.drop ((b :: q).length)) (show b :: q ++ r = (b :: (q ++ r).take ((decodeHead (b :: (q ++ r))).2 - 1)) ++ (q ++ r).drop ((decodeHead (b :: (q ++ r))).2 - 1) by simp)
        rw [List.drop_left, h4, List.drop_left] at h5
        exact h5.symm

/-- UTF-8 is what is an encoding of characters. -/
theorem valid_iff {s : Bytes} : validUtf8 s = true ↔ ∃ cs, s = encode cs := by
  constructor
  · intro h
    obtain ⟨cs, h2⟩ := Replaced.total s
    exact ⟨cs, by rw [← h2.lossy, lossy_valid h]⟩
  · rintro ⟨cs, rfl⟩
    induction cs with
    | nil => rfl
    | cons c cs ih =>
      refine valid_append' ?_ ih
      have h1 := form_decode (encode_form c) []
      have hne := form_ne (encode_form c)
      rw [List.append_nil] at h1
      cases hc : String.utf8EncodeChar c with
      | nil => exact absurd hc hne
      | cons b r =>
        rw [hc] at h1
        rw [valid_cons, h1]
        simp
        rfl

end Verif
