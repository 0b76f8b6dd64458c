import Verif.Finish
import Verif.Boundary
import Verif.Refine
import Verif.Props.Samples
/-
`from_slice`: panics, termination and error spans (C04, C05, C06, C46).
-/
namespace Verif

theorem parseF_outcome (f : Nat) (inp : Bytes) : Outcome (fun _ => True) (Fails inp 0) (parseF f inp) := by
  have h := pparseF_outcome f inp
  rw [parseF_refine]
  cases hp : pparseF f inp with
  | error e => rw [hp] at h; exact h
  | ok r => trivial

theorem parseF_approx (inp : Bytes) (f' f : Nat) (h : inp.length + 2 ≤ f) : Approx (parseF f' inp) (parseF f inp) := by
  rw [parseF_refine, parseF_refine]
  rcases pparseF_approx inp f' f h with h | h
  · rw [h]; exact .inl rfl
  · rw [h]; exact .inr rfl

/-- C04: `from_slice` never panics. -/
theorem C04_no_panic (inp : Bytes) (f : Nat) : parseF f inp ≠ .error .panic := by
  intro h
  rcases (parseF_outcome f inp).error h with h | ⟨a, b, k, h, _⟩ <;> cases h

example : fromSlice (b! "[a, {b: c") = .error (.err 9 9 .badMappingTerminator) := by decide

/-! ### C05: termination -/

/-- The amount of fuel `fromSlice` uses is irrelevant: if `from_slice` finishes at all, this is what it returns. -/
theorem C05_fuel (inp : Bytes) (f : Nat) (h : parseF f inp ≠ .error .fuel) : fromSlice inp = parseF f inp :=
  (parseF_approx inp f (inp.length + 6) (by omega)).ne h

theorem parsed_iff {inp : Bytes} {doc : Document} : Parsed inp doc ↔ fromSlice inp = .ok doc := by
  constructor
  · rintro ⟨f, h⟩
    rw [C05_fuel inp f (by rw [h]; simp), h]
  · exact fun h => ⟨_, h⟩

example : Parsed sampleText sample := parsed_iff.2 (by decide)

/-- Termination of `from_slice`: the parser finishes with some amount of fuel. -/
def Terminates (inp : Bytes) : Prop := ∃ f, parseF f inp ≠ .error .fuel

/-- C05 is false: an unterminated single-quoted scalar makes `from_slice` loop forever. -/
theorem C05_terminates_false : ¬ ∀ inp, Terminates inp := by
  intro h
  obtain ⟨f, hf⟩ := h (b! "'")
  have := C05_fuel _ f hf
  rw [← this] at hf
  exact hf (by decide)

/-- C05, the part that holds: `from_slice` finishes whenever every single quote that could open a scalar is closed.
A quote could open a scalar at the start of the input, after white space, `-`, `:` or a NUL byte, and anywhere
after a `[`.  Missing: quotes that satisfy this but that the parser does not read as the start of a scalar, as in
the comment `# it's` (`it's` is fine, ` 's` is not); for those it may or may not finish. -/
theorem C05_terminates_partial (inp : Bytes)
    (h : ∀ n : Nat, mayStart inp n = true → peekAt inp n = SQ → closesQuote (inp.drop (n + 1)) = true) : Terminates inp :=
  ⟨inp.length + 2, by
    rw [parseF_refine]
    have := pparseF_fin inp h (inp.length + 2) (Nat.le_refl _)
    cases hp : pparseF (inp.length + 2) inp with
    | error e => intro hc; cases hc; exact this hp
    | ok r => simp⟩

/-- In particular without single quotes. -/
theorem C05_no_quotes_partial (inp : Bytes) (h : SQ ∉ inp) : Terminates inp := by
  refine C05_terminates_partial inp fun n _ hn => absurd ?_ h
  have hlt := lt_of_peek (inp := inp) (n := n) (by rw [hn]; decide)
  rw [← hn, peekAt_get hlt]
  exact List.getElem_mem _

/-- The hypothesis for positions in the input is enough, and so can be checked. -/
theorem quotes_ok {inp : Bytes} (h : ∀ n, n < inp.length → mayStart inp n = true → peekAt inp n = SQ → closesQuote (inp.drop (n + 1)) = true) :
    ∀ n : Nat, mayStart inp n = true → peekAt inp n = SQ → closesQuote (inp.drop (n + 1)) = true :=
  fun n h1 h2 => h n (lt_of_peek (by rw [h2]; decide)) h1 h2

example : Terminates (b! "a: 'it''s'\nb: don't\nc: {x: 'y', z: [u]}\n") := C05_terminates_partial _ (quotes_ok (by decide))
example : Terminates (b! "{a: [b, \"c") := C05_no_quotes_partial _ (by decide)

/-! ### C06 and C46: error spans -/

/-- C06: the span of an error is a range inside the input. -/
theorem C06_span (inp : Bytes) (f a b : Nat) (k : ErrKind) (h : parseF f inp = .error (.err a b k)) :
    a ≤ b ∧ b ≤ inp.length := by
  rcases (parseF_outcome f inp).error h with h | ⟨a, b, k, h, h1, h2, h3, _⟩ <;> cases h
  exact ⟨h2, h3⟩

example : fromSlice (b! "a: {b c}") = .error (.err 4 8 .badMappingSeparator) := by decide

/-- `str::is_char_boundary`: the ends, and every position not before a continuation byte. -/
def charBoundary (s : Bytes) (n : Nat) : Prop := n = 0 ∨ n = s.length ∨ ∃ b, s[n]? = some b ∧ isCont b = false

instance (s : Bytes) (n : Nat) : Decidable (charBoundary s n) :=
  match h : s[n]? with
  | none => decidable_of_iff (n = 0 ∨ n = s.length) (by simp [charBoundary, h])
  | some b => decidable_of_iff (n = 0 ∨ n = s.length ∨ isCont b = false) (by simp [charBoundary, h])

theorem valid_head_not_cont {b : UInt8} {r : Bytes} (h : validUtf8 (b :: r) = true) : isCont b = false := by
  cases hb : isCont b with
  | false => rfl
  | true =>
    exfalso
    rw [valid_cons, Bool.and_eq_true] at h
    have hge := isCont_ge hb
    simp only [isCont, Bool.and_eq_true, decide_eq_true_eq, UInt8.le_iff_toNat_le] at hb
    have hs : seqLen b = 0 := by
      unfold seqLen
      have e1 : (0xBF : UInt8).toNat = 191 := rfl
      have e2 : (0xC2 : UInt8).toNat = 194 := rfl
      have e3 : (0xE0 : UInt8).toNat = 224 := rfl
      have e4 : (0xF0 : UInt8).toNat = 240 := rfl
      simp only [Bool.and_eq_true, decide_eq_true_eq, UInt8.le_iff_toNat_le]
      rw [if_neg (by omega), if_neg (by omega), if_neg (by omega)]
    simp only [decodeHead, if_neg hge, hs] at h
    exact absurd h.1 (by simp)

theorem charBoundary_cut {s : Bytes} (h : validUtf8 s = true) {n : Nat} (hn : n ≤ s.length) (hc : Cut s n) : charBoundary s n := by
  by_cases hl : n = s.length
  · exact .inr (.inl hl)
  · have hlt : n < s.length := by omega
    have := valid_drop h hc
    rw [List.drop_eq_getElem_cons hlt] at this
    exact .inr (.inr ⟨s[n], by simp, valid_head_not_cont this⟩)

/-- C46 is false: the span of an unknown escape can end inside a character, here `"\é"`. -/
theorem C46_char_boundary_false : ¬ ∀ inp a b k, validUtf8 inp = true → fromSlice inp = .error (.err a b k) →
    charBoundary inp a ∧ charBoundary inp b := by
  intro h
  have := (h (b! "\"\\é\"") 1 3 .badEscape (by decide) (by decide)).2
  exact absurd this (by decide)

/-- The errors about escape sequences. -/
def aboutEscapes (k : ErrKind) : Prop := k = .badEscape ∨ k = .badHexEscape ∨ k = .badUnicodeEscape

/-- C46, the part that holds: the start of every span is on a character boundary, and so is the end of every span of an
error that is not about an escape sequence.  Missing: the end of the span of the other three, which may cut the
character after the backslash. -/
theorem C46_char_boundary_partial (inp : Bytes) (f a b : Nat) (k : ErrKind) (hv : validUtf8 inp = true)
    (h : parseF f inp = .error (.err a b k)) :
    charBoundary inp a ∧ (¬ aboutEscapes k → charBoundary inp b) := by
  rcases (parseF_outcome f inp).error h with h | ⟨a, b, k, h, h1, h2, h3, h4, h5⟩ <;> cases h
  refine ⟨charBoundary_cut hv (by omega) h4, fun hk => ?_⟩
  rcases h5 with h5 | h5
  · exact absurd (by cases k <;> simp [ErrKind.isEscape, aboutEscapes] at *) hk
  · exact charBoundary_cut hv h3 h5

example : validUtf8 (b! "é: {é é}") = true ∧ fromSlice (b! "é: {é é}") = .error (.err 5 11 .badMappingSeparator) ∧
    ¬ aboutEscapes .badMappingSeparator := by
  refine ⟨by decide, by decide, by simp [aboutEscapes]⟩

end Verif
