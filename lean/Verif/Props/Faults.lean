import Verif.FaultRules
import Verif.Props.Samples
/-
What is wrong with a text that is refused (C56).
-/
namespace Verif

/-- C56: if a text is refused, then up to the place given in the error the text is as it should be, and there, or next to it, it is not: what is missing or bad is
what the error says, and the span covers it. -/
theorem C56_errors {inp : Bytes} {start stop : Nat} {kind : ErrKind} (h : fromSlice inp = .error (.err start stop kind)) : Refuses inp start stop kind := refused h

/-- The examples of the documentation of the errors. -/
example : fromSlice (b! "\n{hello: world}\n42\n") = .error (.err 16 19 .expectedEof) ∧
    fromSlice (b! "[Aristotle, # this is a comment") = .error (.err 11 31 .badSequenceTerminator) ∧
    fromSlice (b! "{name: Aristotle, age # this is a comment") = .error (.err 17 41 .badMappingSeparator) ∧
    fromSlice (b! "\nname: Aristotle\nage # end") = .error (.err 17 26 .badMappingSeparator) ∧
    fromSlice (b! "{name: Aristotle, # this is a comment") = .error (.err 17 37 .badMappingTerminator) ∧
    fromSlice (b! "\"hello \\o1u world\"") = .error (.err 7 9 .badEscape) ∧
    fromSlice (b! "\"hello \\x1u world\"") = .error (.err 7 11 .badHexEscape) ∧
    fromSlice (b! "\"hello \\ud800 world\"") = .error (.err 7 13 .badUnicodeEscape) := by decide +kernel

/-- What C56 says of `a: [b, # c`. -/
example : fromSlice (b! "a: [b, # c") = .error (.err 6 10 .badSequenceTerminator) ∧
    Broken (b! "a: [b, # c") .block 0 6 10 .badSequenceTerminator :=
  ⟨by decide +kernel, .keys ⟨by decide, (fun _ h => by cases h)⟩ <|
    .inside (key := some (b! "a")) (a := 2) (b := 3) rfl ⟨1, by decide, by decide, by decide, .inr ⟨by decide, by decide, by decide, by decide, ⟨by decide, by decide⟩,
      fun p _ h2 h3 => by
        have : p = 0 := by omega
        subst this
        exact absurd h3.1 (by decide)⟩⟩ ⟨⟨by decide, by decide, by decide⟩, by decide, by decide⟩ <|
    .brackets (n := 4) (by decide) ⟨⟨by decide, by decide, by decide⟩, by decide, by decide⟩ <|
    .later (key := none) (b := 4) (e := 5) (from' := 6) (n' := 10) (last := false) (v := .scalar (.string (b! "b"))) ⟨by decide, by decide⟩ rfl
      ⟨⟨by decide, by decide, by decide⟩, by decide, by decide⟩ (.scalar rfl (by decide) (by decide) (.plain (fun k h => by
        match k, h with
        | 0, h => exact absurd h (by decide)
        | k + 1, h => rw [List.take_of_length_le (by simp [slice])] at h; exact absurd h (by decide)) (by decide)))
      ⟨5, rfl, .inl ⟨rfl, by decide, rfl, ⟨by decide, by decide, by decide⟩, by decide, by decide⟩⟩ <|
    .none (.inl rfl)⟩

/-- After a block scalar in an inline sequence, the end of the text is found one byte later than it is. -/
example : fromSlice (b! "[|\n a\n,") = .error (.err 6 7 .badSequenceTerminator) := by decide +kernel

end Verif
