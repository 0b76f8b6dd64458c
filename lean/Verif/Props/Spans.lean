import Verif.FaultRules
import Verif.Props.Parser
/-
Where the spans of errors end, exactly (C46).
-/
namespace Verif

variable {inp : Bytes}

private def EscapeAt (inp : Bytes) (start stop : Nat) (k : ErrKind) : Prop := aboutEscapes k → inp[start]? = some BSL ∧ BadEscape inp start stop k

private theorem escapeAt_of {start stop : Nat} {k : ErrKind} (h : ¬ aboutEscapes k) : EscapeAt inp start stop k := fun h1 => absurd h1 h

mutual
private theorem Broken.escapes {s : Spot} {lo a b : Nat} {k : ErrKind} : Broken inp s lo a b k → EscapeAt inp a b k
  | .escape (ps := ps) (rest := rest) h1 h2 h3 => fun _ => ⟨by
      have : inp[lo + (1 + (ps.flatMap Piece.text).length)]? = (inp.drop lo)[1 + (ps.flatMap Piece.text).length]? := by rw [List.getElem?_drop]
      rw [Nat.add_assoc, this, h2, Nat.add_comm 1]
      simp, h3⟩
  | .dashes _ h2 => h2.escapes
  | .keys _ h2 => h2.escapes
  | .brackets _ _ h3 => h3.escapes
  | .braces _ _ h3 => h3.escapes
private theorem BrokenRows.escapes {c : Nat} {first m : Bool} {lo a b : Nat} {k : ErrKind} : BrokenRows inp c first m lo a b k → EscapeAt inp a b k
  | .inside _ _ _ h4 => h4.escapes
  | .later _ _ _ _ _ h6 => h6.escapes
  | .colon _ _ _ _ _ _ => escapeAt_of (by simp [aboutEscapes])
private theorem BrokenCells.escapes {m last : Bool} {from_ n a b : Nat} {k : ErrKind} : BrokenCells inp m last from_ n a b k → EscapeAt inp a b k
  | .inside _ _ _ h4 => h4.escapes
  | .later _ _ _ _ _ h6 => h6.escapes
  | .colon _ _ _ => escapeAt_of (by simp [aboutEscapes])
  | .none _ => escapeAt_of (by cases m <;> simp [aboutEscapes, terminator])
  | .other (key := key) _ _ _ _ _ _ => escapeAt_of (by cases key.isSome <;> simp [aboutEscapes, terminator])
end

theorem digit16_ascii {b : UInt8} (h : digit16 b ≠ none) : b < 0x80 := by
  have : ∀ b : Fin 256, digit16 (UInt8.ofNat b) ≠ none → UInt8.ofNat b < 0x80 := by decide +kernel
  have := this ⟨b.toNat, b.toNat_lt⟩
  simp only [UInt8.ofNat_toNat] at this
  exact this h

/-- After the first byte of a character that is not ASCII there are more. -/
theorem valid_second {b : UInt8} {r : Bytes} (h : validUtf8 (b :: r) = true) (hb : ¬ b < 0x80) : ∃ c r', r = c :: r' ∧ isCont c = true := by
  rw [valid_cons, Bool.and_eq_true] at h
  have h := h.1
  simp only [decodeHead, if_neg hb] at h
  cases r with
  | nil => split at h <;> simp at *
  | cons c r' =>
    refine ⟨c, r', rfl, ?_⟩
    cases hs : secondOk b c with
    | true => exact secondOk_cont hs
    | false =>
      exfalso
      split at h <;> simp_all

/-- The first byte after something that is ASCII: if it is not, then the next byte is not the start of a character. -/
private theorem boundary_after (hv : validUtf8 inp = true) {p : Nat} (h0 : 0 < p) (h1 : inp.getD (p - 1) 0 < 0x80) (hp : p ≤ inp.length) :
    charBoundary inp (min (p + 1) inp.length) ↔ inp.getD (min (p + 1) inp.length - 1) 0 < 0x80 := by
  have hc : Cut inp p := .inr (.inr (by rw [← getD_peek]; exact h1))
  rcases Nat.lt_or_eq_of_le hp with hp | rfl
  · rw [Nat.min_eq_left (by omega), Nat.add_sub_cancel]
    constructor
    · intro hb
      refine Decidable.byContradiction fun hn => ?_
      have hd := valid_drop hv hc
      rw [List.drop_eq_getElem_cons hp] at hd
      have hg : inp.getD p 0 = inp[p] := by simp [hp]
      obtain ⟨c, r', e1, e2⟩ := valid_second hd (by rw [← hg]; exact hn)
      have e3 : inp[p + 1]? = some c := by
        have := congrArg (·[0]?) e1
        simpa using this
      rcases hb with hb | hb | ⟨x, hb, hb'⟩
      · omega
      · rw [hb] at e3; simp at e3
      · rw [e3] at hb; cases hb; rw [e2] at hb'; cases hb'
    · intro hb
      exact charBoundary_cut hv (by omega) (cut_next (by rw [← getD_peek]; exact hb))
  · rw [Nat.min_eq_right (by omega)]
    exact ⟨fun _ => h1, fun _ => .inr (.inl rfl)⟩

private theorem digits_after (hv : validUtf8 inp = true) {c : UInt8} (hc : c < 0x80) {start n : Nat} (h0 : inp[start + 1]? = some c)
    (h1 : ∀ i < n, digit16 (inp.getD (start + 2 + i) 0) ≠ none) :
    charBoundary inp (min (start + 3 + n) inp.length) ↔ inp.getD (min (start + 3 + n) inp.length - 1) 0 < 0x80 := by
  have hl : start + 1 < inp.length := by
    refine Decidable.byContradiction fun h => ?_
    rw [List.getElem?_eq_none (by omega)] at h0; cases h0
  have hl2 : start + 2 + n ≤ inp.length := by
    cases n with
    | zero => omega
    | succ n =>
      refine Decidable.byContradiction fun h => h1 n (by omega) ?_
      rw [List.getD_eq_getElem?_getD, List.getElem?_eq_none (by omega)]; decide
  rw [show start + 3 + n = start + 2 + n + 1 by omega]
  refine boundary_after hv (by omega) ?_ hl2
  cases n with
  | zero => rw [List.getD_eq_getElem?_getD]; simp [h0, hc]
  | succ n => exact digit16_ascii (h1 n (by omega))

/-- C46, exactly: the start of every span is on a character boundary, and so is the end if the error is not about an escape; otherwise it is if the last byte covered is
ASCII, and only then. -/
theorem C46_char_boundary_exact {inp : Bytes} {a b : Nat} {k : ErrKind} (hv : validUtf8 inp = true) (h : fromSlice inp = .error (.err a b k)) :
    charBoundary inp a ∧ (charBoundary inp b ↔ (aboutEscapes k → inp.getD (b - 1) 0 < 0x80)) := by
  have hp := C46_char_boundary_partial inp _ a b k hv h
  refine ⟨hp.1, ?_⟩
  by_cases hk : aboutEscapes k
  case neg => exact ⟨fun _ h => absurd h hk, fun _ => hp.2 hk⟩
  refine Iff.trans ?_ ⟨fun h _ => h, fun h => h hk⟩
  obtain ⟨lo, _, _, hr | ⟨_, _, _, _, _, _, rfl⟩⟩ := refused h
  case inr => simp [aboutEscapes] at hk
  obtain ⟨h0, he⟩ := hr.escapes hk
  have hl : a < inp.length := by
    refine Decidable.byContradiction fun h => ?_
    rw [List.getElem?_eq_none (by omega)] at h0; cases h0
  cases he with
  | letter h1 => exact boundary_after (p := a + 1) hv (by omega) (by rw [List.getD_eq_getElem?_getD]; simp [h0]; decide) (by omega)
  | hex h1 h2 h3 h4 => exact digits_after hv (by decide) h1 h3
  | uni h1 h2 h3 h4 => exact digits_after hv (by decide) h1 h3
  | @half v h1 h2 h3 h4 =>
    have h5 : inp.getD (a + 6 - 1) 0 < 0x80 := by
      refine digit16_ascii fun hn => ?_
      have e : slice inp (a + 2) (a + 6) = [inp.getD (a + 2) 0, inp.getD (a + 3) 0, inp.getD (a + 4) 0, inp.getD (a + 5) 0] := by
        apply List.ext_getElem? 
        intro i
        rcases Nat.lt_or_ge i 4 with hi | hi
        · rw [slice, List.getElem?_take_of_lt (by omega), List.getElem?_drop]
          match i, hi with
          | 0, _ => simp [show a + 2 < inp.length by omega]
          | 1, _ => simp [show a + 2 + 1 < inp.length by omega]
          | 2, _ => simp [show a + 2 + 2 < inp.length by omega]
          | 3, _ => simp [show a + 2 + 3 < inp.length by omega]
        · rw [List.getElem?_eq_none (by simp [slice]; omega), List.getElem?_eq_none (by simpa using hi)]
      rw [e] at h3
      rw [show a + 6 - 1 = a + 5 by omega] at hn
      simp only [number16, hn] at h3
      cases h5 : digit16 (inp.getD (a + 2) 0) <;> cases h6 : digit16 (inp.getD (a + 3) 0) <;> cases h7 : digit16 (inp.getD (a + 4) 0) <;>
        simp only [h5, h6, h7] at h3 <;> cases h3
    exact ⟨fun _ => h5, fun _ => charBoundary_cut hv h2 (cut_next (n := a + 5) (by rw [← getD_peek]; exact h5))⟩

/-- The hypotheses are met, and both sides of the equivalence occur. -/
example : fromSlice (b! "a: \"\\xé\"") = .error (.err 4 7 .badHexEscape) ∧ ¬ charBoundary (b! "a: \"\\xé\"") 7 ∧
    fromSlice (b! "a: \"\\x_é\"") = .error (.err 4 7 .badHexEscape) ∧ charBoundary (b! "a: \"\\x_é\"") 7 := by decide +kernel

end Verif
