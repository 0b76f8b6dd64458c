import Verif.Utf8
import Verif.ScanLemmas
/-
In valid UTF-8, positions next to ASCII bytes are between characters.
-/
namespace Verif

theorem peekAt_append_right (a b : Bytes) (n : Nat) : peekAt (a ++ b) (a.length + n) = peekAt b n := by
  simp [peekAt, List.drop_append]

theorem peekAt_append_left {a : Bytes} (b : Bytes) {n : Nat} (h : n < a.length) : peekAt (a ++ b) n = peekAt a n := by
  rw [peekAt_get h, peekAt_get (by simp; omega)]
  exact List.getElem_append_left h

theorem valid_take {s : Bytes} (h : validUtf8 s = true) {n : Nat} (hc : Cut s n) : validUtf8 (s.take n) = true := by
  induction hl : s.length using Nat.strongRecOn generalizing s n with
  | ind l ih =>
    cases s with
    | nil => simp; rfl
    | cons b r =>
      by_cases hn0 : n = 0
      · subst hn0; rfl
      have hs := decodeHead_step b r
      rw [valid_cons, Bool.and_eq_true] at h
      generalize hd : decodeHead (b :: r) = d at *
      obtain ⟨ok, L⟩ := d
      simp only at h hs
      have hpos := hs.pos
      have hle := hs.le
      have hcl : (b :: r.take (L - 1)).length = L := by simp; omega
      have hsplit : b :: r = (b :: r.take (L - 1)) ++ r.drop (L - 1) := by simp
      by_cases hnL : L ≤ n
      · rw [hsplit, List.take_append, hcl, List.take_of_length_le (by omega)]
        have hvc : validUtf8 (b :: r.take (L - 1)) = true := by
          have := hs.loc h.1 []
          rw [List.append_nil] at this
          rw [valid_cons, this]
          simp
          rfl
        rw [valid_append hvc]
        refine ih _ ?_ h.2 ?_ rfl
        · simp at hl ⊢; omega
        · rw [hsplit] at hc
          obtain ⟨k, rfl⟩ : ∃ k, n = L + k := ⟨n - L, by omega⟩
          rw [show L + k - L = k by omega]
          rcases hc with hc | hc | hc
          · left; rw [← peekAt_append_right (b :: r.take (L - 1)), hcl]; exact hc
          · omega
          · by_cases hk : k = 0
            · exact .inr (.inl hk)
            · right; right
              rw [← peekAt_append_right (b :: r.take (L - 1)), hcl]
              rw [show L + (k - 1) = L + k - 1 by omega]; exact hc
      · exfalso
        have hb : ¬ b < 0x80 := fun hb => by have := (hs.ascii hb).2; omega
        have cont : ∀ j, 0 < j → j < L → ¬ peekAt (b :: r) j < 0x80 := by
          intro j h0 hj
          obtain ⟨i, rfl⟩ : ∃ i, j = i + 1 := ⟨j - 1, by omega⟩
          have : peekAt (b :: r) (i + 1) = peekAt r i := rfl
          rw [this, peekAt_get (by omega)]
          refine isCont_ge (hs.cont _ ?_)
          exact List.mem_take_iff_getElem.2 ⟨i, by omega, rfl⟩
        rcases hc with hc | hc | hc
        · exact cont n (by omega) (by omega) hc
        · exact hn0 hc
        · by_cases h1 : n = 1
          · subst h1; exact hb hc
          · exact cont (n - 1) (by omega) (by omega) hc

theorem valid_drop {s : Bytes} (h : validUtf8 s = true) {n : Nat} (hc : Cut s n) : validUtf8 (s.drop n) = true := by
  have := valid_append (valid_take h hc) (s.drop n)
  rw [List.take_append_drop] at this
  rw [← this]; exact h

theorem valid_slice {s : Bytes} (h : validUtf8 s = true) {a b : Nat} (ha : Cut s a) (hb : Cut s b) :
    validUtf8 (slice s a b) = true := by
  unfold slice
  by_cases hab : a ≤ b
  · refine valid_take (valid_drop h ha) ?_
    rcases hb with hb | hb | hb
    · left; simp only [peekAt, List.drop_drop] at *
      rw [show a + (b - a) = b by omega]; exact hb
    · exact .inr (.inl (by omega))
    · by_cases h0 : b - a = 0
      · exact .inr (.inl h0)
      · right; right; simp only [peekAt, List.drop_drop] at *
        rw [show a + (b - a - 1) = b - 1 by omega]; exact hb
  · rw [show b - a = 0 by omega]; rfl

end Verif
