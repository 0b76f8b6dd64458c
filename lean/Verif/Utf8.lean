import Verif.Bytes
/-
UTF-8: facts about the decoder.
-/
namespace Verif

theorem secondOk_cont {b0 b1 : UInt8} (h : secondOk b0 b1 = true) : isCont b1 = true := by
  unfold secondOk at h
  unfold isCont at *
  by_cases h1 : (b0 == 0xE0) = true <;> by_cases h2 : (b0 == 0xED) = true <;> by_cases h3 : (b0 == 0xF0) = true <;>
    by_cases h4 : (b0 == 0xF4) = true <;> simp only [h1, h2, h3, h4, if_true, if_false, Bool.false_eq_true] at h <;>
    simp only [Bool.and_eq_true, decide_eq_true_eq, UInt8.le_iff_toNat_le] at h ⊢ <;>
    (obtain ⟨h5, h6⟩ := h; constructor <;> simp at * <;> omega)

/-- What one decoding step looks at. -/
structure Step (b : UInt8) (r : Bytes) (ok : Bool) (len : Nat) : Prop where
  pos : 1 ≤ len
  le : len ≤ r.length + 1
  cont : ∀ c ∈ r.take (len - 1), isCont c = true
  ascii : b < 0x80 → ok = true ∧ len = 1
  more : ¬ b < 0x80 → ok = true → 1 < len
  loc : ok = true → ∀ s, decodeHead (b :: r.take (len - 1) ++ s) = (true, len)

theorem decodeHead_step (b : UInt8) (r : Bytes) : Step b r (decodeHead (b :: r)).1 (decodeHead (b :: r)).2 := by
  by_cases hb : b < 0x80
  · simp only [decodeHead, if_pos hb]
    exact ⟨by simp, by simp, by simp, by simp, fun h => absurd hb h, by simp [decodeHead, hb]⟩
  have bad : Step b r false 1 := ⟨by simp, by simp, by simp, fun h => absurd h hb, by simp, by simp⟩
  have hl : seqLen b = 0 ∨ seqLen b = 2 ∨ seqLen b = 3 ∨ seqLen b = 4 := by
    unfold seqLen; repeat' split
    all_goals simp
  rcases hl with hl | hl | hl | hl
  · simp only [decodeHead, if_neg hb, hl]; exact bad
  · cases r with
    | nil => simp only [decodeHead, if_neg hb, hl]; exact bad
    | cons b1 r =>
      simp only [decodeHead, if_neg hb, hl]
      by_cases h1 : secondOk b b1
      · simp only [h1, if_true]
        exact ⟨by simp, by simp, by simp [secondOk_cont h1], fun h => absurd h hb, by simp,
          by simp [decodeHead, hb, hl, h1]⟩
      · simp only [h1, if_false, Bool.false_eq_true]; exact bad
  · cases r with
    | nil => simp only [decodeHead, if_neg hb, hl]; exact bad
    | cons b1 r =>
      simp only [decodeHead, if_neg hb, hl]
      by_cases h1 : secondOk b b1
      · simp only [h1, Bool.not_true, Bool.false_eq_true, if_false]
        have bad2 : Step b (b1 :: r) false 2 :=
          ⟨by simp, by simp, by simp [secondOk_cont h1], fun h => absurd h hb, by simp, by simp⟩
        cases r with
        | nil => exact bad2
        | cons b2 r =>
          by_cases h2 : isCont b2
          · simp only [h2, if_true]
            exact ⟨by simp, by simp, by simp [secondOk_cont h1, h2], fun h => absurd h hb, by simp,
              by simp [decodeHead, hb, hl, h1, h2]⟩
          · simp only [h2, if_false, Bool.false_eq_true]; exact bad2
      · simp only [h1, Bool.not_false, if_true]; exact bad
  · cases r with
    | nil => simp only [decodeHead, if_neg hb, hl]; exact bad
    | cons b1 r =>
      simp only [decodeHead, if_neg hb, hl]
      by_cases h1 : secondOk b b1
      · simp only [h1, Bool.not_true, Bool.false_eq_true, if_false]
        have bad2 : Step b (b1 :: r) false 2 :=
          ⟨by simp, by simp, by simp [secondOk_cont h1], fun h => absurd h hb, by simp, by simp⟩
        cases r with
        | nil => exact bad2
        | cons b2 r =>
          by_cases h2 : isCont b2
          · simp only [h2, Bool.not_true, Bool.false_eq_true, if_false]
            have bad3 : Step b (b1 :: b2 :: r) false 3 :=
              ⟨by simp, by simp, by simp [secondOk_cont h1, h2], fun h => absurd h hb, by simp, by simp⟩
            cases r with
            | nil => exact bad3
            | cons b3 r =>
              by_cases h3 : isCont b3
              · simp only [h3, if_true]
                exact ⟨by simp, by simp, by simp [secondOk_cont h1, h2, h3], fun h => absurd h hb, by simp,
                  by simp [decodeHead, hb, hl, h1, h2, h3]⟩
              · simp only [h3, if_false, Bool.false_eq_true]; exact bad3
          · simp only [h2, Bool.not_false, if_true]; exact bad2
      · simp only [h1, Bool.not_false, if_true]; exact bad

theorem charsGo_skip : ∀ (n : Nat) (s : Bytes), charsGo n s = charsGo 0 (s.drop n)
  | 0, _ => rfl
  | n + 1, [] => rfl
  | n + 1, _ :: r => by rw [charsGo, charsGo_skip n r]; rfl

theorem validGo_skip : ∀ (n : Nat) (s : Bytes), validGo n s = validGo 0 (s.drop n)
  | 0, _ => rfl
  | n + 1, [] => rfl
  | n + 1, _ :: r => by rw [validGo, validGo_skip n r]; rfl

theorem chars_cons (b : UInt8) (r : Bytes) : chars (b :: r) =
    (if (decodeHead (b :: r)).1 then b :: r.take ((decodeHead (b :: r)).2 - 1) else replacement) ::
      chars (r.drop ((decodeHead (b :: r)).2 - 1)) := by
  have hs := decodeHead_step b r
  simp only [chars, charsGo]
  rw [charsGo_skip]
  congr 2
  obtain ⟨n, hn⟩ : ∃ n, (decodeHead (b :: r)).2 = n + 1 := ⟨_, (Nat.sub_add_cancel hs.pos).symm⟩
  simp [hn]

theorem valid_cons (b : UInt8) (r : Bytes) : validUtf8 (b :: r) =
    ((decodeHead (b :: r)).1 && validUtf8 (r.drop ((decodeHead (b :: r)).2 - 1))) := by
  simp only [validUtf8, validGo]
  rw [validGo_skip]

theorem isCont_ge {c : UInt8} (h : isCont c = true) : ¬ c < 0x80 := by
  simp only [isCont, Bool.and_eq_true, decide_eq_true_eq] at h
  exact fun h' => absurd (UInt8.lt_of_lt_of_le h' h.1) (by simp)

/-- ASCII characters are ASCII bytes. -/
theorem mem_chars {c : UInt8} (hc : c < 0x80) : ∀ s : Bytes, [c] ∈ chars s ↔ c ∈ s := by
  intro s
  induction hn : s.length using Nat.strongRecOn generalizing s with
  | ind n ih =>
    cases s with
    | nil => simp [chars, charsGo]
    | cons b r =>
      have hs := decodeHead_step b r
      rw [chars_cons]
      simp only [List.mem_cons]
      rw [ih (r.drop ((decodeHead (b :: r)).2 - 1)).length (by simp at hn ⊢; omega) _ rfl]
      have hr : c ∈ r ↔ c ∈ r.drop ((decodeHead (b :: r)).2 - 1) := by
        constructor
        · intro h
          rw [← List.take_append_drop ((decodeHead (b :: r)).2 - 1) r, List.mem_append] at h
          rcases h with h | h
          · exact absurd hc (isCont_ge (hs.cont c h))
          · exact h
        · exact List.mem_of_mem_drop
      rw [hr]
      by_cases hb : b < 0x80
      · obtain ⟨h1, h2⟩ := hs.ascii hb
        simp [h1, h2]
      · have : c ≠ b := fun h => hb (h ▸ hc)
        simp only [this, false_or]
        constructor
        · rintro (h | h)
          · exfalso
            split at h
            · next hok =>
              have h2 := hs.more hb hok
              have h3 := hs.le
              cases r with
              | nil => simp at h3; omega
              | cons b1 r =>
                obtain ⟨n, hn⟩ : ∃ n, (decodeHead (b :: b1 :: r)).2 - 1 = n + 1 :=
                  ⟨(decodeHead (b :: b1 :: r)).2 - 2, by omega⟩
                rw [hn] at h; simp at h
            · simp [replacement] at h
          · exact h
        · exact .inr

/-- Valid text is displayed as it is. -/
theorem lossy_valid : ∀ {s : Bytes}, validUtf8 s = true → lossy s = s := by
  intro s
  induction hn : s.length using Nat.strongRecOn generalizing s with
  | ind n ih =>
    intro h
    cases s with
    | nil => rfl
    | cons b r =>
      have hs := decodeHead_step b r
      rw [valid_cons, Bool.and_eq_true] at h
      have := ih (r.drop ((decodeHead (b :: r)).2 - 1)).length (by simp at hn ⊢; omega) rfl h.2
      simp only [lossy] at this ⊢
      rw [chars_cons, if_pos h.1, List.flatten_cons, this]
      simp [List.take_append_drop]

/-- A valid text is a sequence of characters, whatever follows. -/
theorem chars_append {s : Bytes} (h : validUtf8 s = true) (s' : Bytes) : chars (s ++ s') = chars s ++ chars s' := by
  induction hn : s.length using Nat.strongRecOn generalizing s with
  | ind n ih =>
    cases s with
    | nil => rfl
    | cons b r =>
      have hs := decodeHead_step b r
      rw [valid_cons, Bool.and_eq_true] at h
      have h1 := ih (r.drop ((decodeHead (b :: r)).2 - 1)).length (by simp at hn ⊢; omega) h.2 rfl
      have hl := hs.le
      have hloc := hs.loc h.1 (r.drop ((decodeHead (b :: r)).2 - 1) ++ s')
      have : b :: r.take ((decodeHead (b :: r)).2 - 1) ++ (r.drop ((decodeHead (b :: r)).2 - 1) ++ s') = b :: (r ++ s') := by
        rw [← List.append_assoc]; simp [List.take_append_drop]
      rw [this] at hloc
      rw [List.cons_append, chars_cons b (r ++ s'), hloc, chars_cons b r]
      simp only [if_true, h.1, List.cons_append]
      rw [List.take_append_of_le_length (by omega), List.drop_append_of_le_length (by omega), h1]

theorem valid_append {s : Bytes} (h : validUtf8 s = true) (s' : Bytes) : validUtf8 (s ++ s') = validUtf8 s' := by
  induction hn : s.length using Nat.strongRecOn generalizing s with
  | ind n ih =>
    cases s with
    | nil => rfl
    | cons b r =>
      have hs := decodeHead_step b r
      rw [valid_cons, Bool.and_eq_true] at h
      have h1 := ih (r.drop ((decodeHead (b :: r)).2 - 1)).length (by simp at hn ⊢; omega) h.2 rfl
      have hl := hs.le
      have hloc := hs.loc h.1 (r.drop ((decodeHead (b :: r)).2 - 1) ++ s')
      have : b :: r.take ((decodeHead (b :: r)).2 - 1) ++ (r.drop ((decodeHead (b :: r)).2 - 1) ++ s') = b :: (r ++ s') := by
        rw [← List.append_assoc]; simp [List.take_append_drop]
      rw [this] at hloc
      rw [List.cons_append, valid_cons b (r ++ s'), hloc]
      simp only [Bool.true_and]
      rw [List.drop_append_of_le_length (by omega), h1]

theorem lossy_append {s : Bytes} (h : validUtf8 s = true) (s' : Bytes) : lossy (s ++ s') = s ++ lossy s' := by
  have := lossy_valid h
  simp only [lossy] at this ⊢
  rw [chars_append h, List.flatten_append, this]

theorem chars_ascii {c : UInt8} (hc : c < 0x80) (s : Bytes) : chars (c :: s) = [c] :: chars s := by
  rw [chars_cons]
  obtain ⟨h1, h2⟩ := (decodeHead_step c s).ascii hc
  simp [h1, h2]

theorem valid_ascii {c : UInt8} (hc : c < 0x80) (s : Bytes) : validUtf8 (c :: s) = validUtf8 s := by
  rw [valid_cons]
  obtain ⟨h1, h2⟩ := (decodeHead_step c s).ascii hc
  simp [h1, h2]

theorem valid_of_ascii : ∀ {s : Bytes}, (∀ c ∈ s, c < 0x80) → validUtf8 s = true
  | [], _ => rfl
  | c :: s, h => by
    rw [valid_ascii (h c (by simp))]
    exact valid_of_ascii fun c hc => h c (by simp [hc])

end Verif
