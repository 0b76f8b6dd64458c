import Verif.ExactStuck
import Verif.Props.Grammar
import Verif.Props.Parser
import Verif.Props.Samples
/-
Exactly which texts are accepted, with which contents, which are refused, with which errors, and with which the parser does not finish (C57, C05).
-/
namespace Verif

/-- C57: the texts of which a document with the content `c` is made are those that have the content `c`. -/
theorem C57_accepts {inp : Bytes} {c : Content} : (∃ doc, fromSlice inp = .ok doc ∧ Reads doc.data doc.root c) ↔ Accepts inp c := by
  refine ⟨fun ⟨doc, h1, h2⟩ => ?_, accepted⟩
  obtain ⟨c', h3, h4⟩ := accepts_of h1
  rwa [Reads.unique h2 h4]

/-- C57: the texts that are refused with an error are those that have what the error says, where it says. -/
theorem C57_refuses {inp : Bytes} {start stop : Nat} {kind : ErrKind} : fromSlice inp = .error (.err start stop kind) ↔ Refuses inp start stop kind :=
  ⟨refused, refuses⟩

/-- So a text has at most one content, at most one fault, and not both. -/
theorem C57_content_unique {inp : Bytes} {c c' : Content} (h : Accepts inp c) (h' : Accepts inp c') : c = c' := by
  obtain ⟨doc, h1, h2⟩ := accepted h
  obtain ⟨doc', h3, h4⟩ := accepted h'
  obtain rfl : doc = doc' := by rw [h1] at h3; cases h3; rfl
  exact Reads.unique h2 h4

theorem C57_fault_unique {inp : Bytes} {a b a' b' : Nat} {k k' : ErrKind} (h : Refuses inp a b k) (h' : Refuses inp a' b' k') : a = a' ∧ b = b' ∧ k = k' := by
  have := (refuses h).symm.trans (refuses h')
  cases this
  exact ⟨rfl, rfl, rfl⟩

theorem C57_not_both {inp : Bytes} {c : Content} {a b : Nat} {k : ErrKind} (h : Accepts inp c) : ¬ Refuses inp a b k := by
  intro h'
  obtain ⟨doc, h1, _⟩ := accepted h
  rw [refuses h'] at h1
  cases h1

/-- And a text that has neither is one with which `from_slice` does not finish. -/
theorem C57_neither {inp : Bytes} : ((∀ c, ¬ Accepts inp c) ∧ ∀ a b k, ¬ Refuses inp a b k) ↔ ¬ Terminates inp := by
  constructor
  · rintro ⟨h1, h2⟩ ⟨f, hf⟩
    have he := C05_fuel _ _ hf
    cases hr : fromSlice inp with
    | ok doc => obtain ⟨c, h3, _⟩ := accepts_of hr; exact h1 c h3
    | error e =>
      cases e with
      | err a b k => exact h2 a b k (refused hr)
      | panic => exact C04_no_panic inp _ hr
      | fuel => rw [← he, hr] at hf; exact hf rfl
  · refine fun h => ⟨fun c hc => h ?_, fun a b k hr => h ?_⟩
    · obtain ⟨doc, h1, _⟩ := accepted hc
      exact ⟨inp.length + 6, fun h2 => by unfold fromSlice at h1; rw [h1] at h2; cases h2⟩
    · have h1 := refuses hr
      exact ⟨inp.length + 6, fun h2 => by unfold fromSlice at h1; rw [h1] at h2; cases h2⟩

/-- C05, exactly: `from_slice` does not finish if and only if the text has a value that starts with a single quote that is not closed, and is as it should be up to
there. -/
theorem C05_terminates_iff {inp : Bytes} : Terminates inp ↔ ¬ Hangs inp := by
  constructor
  · rintro ⟨f, hf⟩ h
    exact hf (hangs h f)
  · intro h
    refine ⟨inp.length + 6, fun hc => h (hangs_of hc)⟩

/-- C57: each text is of exactly one kind. -/
theorem C57_kinds (inp : Bytes) : (∃ c, Accepts inp c) ∧ (∀ a b k, ¬ Refuses inp a b k) ∧ ¬ Hangs inp ∨
    (∀ c, ¬ Accepts inp c) ∧ (∃ a b k, Refuses inp a b k) ∧ ¬ Hangs inp ∨ (∀ c, ¬ Accepts inp c) ∧ (∀ a b k, ¬ Refuses inp a b k) ∧ Hangs inp := by
  by_cases h : Hangs inp
  · have := C57_neither.2 fun ht => C05_terminates_iff.1 ht h
    exact .inr (.inr ⟨this.1, this.2, h⟩)
  · by_cases hc : ∃ c, Accepts inp c
    · obtain ⟨c, hc⟩ := hc
      exact .inl ⟨⟨c, hc⟩, fun _ _ _ => C57_not_both hc, h⟩
    · refine .inr (.inl ⟨fun c h => hc ⟨c, h⟩, Classical.byContradiction fun hr => ?_, h⟩)
      exact C57_neither.1 ⟨fun c h => hc ⟨c, h⟩, fun a b k h => hr ⟨a, b, k, h⟩⟩ (C05_terminates_iff.2 h)

/-! Texts of the three kinds. -/

theorem firstKey_a {rest : Bytes} (h : hd rest = SP) : FirstKey (b! "a:" ++ rest) (b! "a") 0 1 := by
  cases rest with
  | nil => exact absurd h (by decide)
  | cons b rest =>
    obtain rfl : b = SP := h
    refine ⟨by decide, rfl, .inr ⟨rfl, rfl, rfl, by decide, ⟨rfl, .inl rfl⟩, fun p _ h2 h3 => ?_⟩⟩
    obtain rfl : p = 0 := by omega
    exact absurd h3.1 (by show ¬ some (97 : UInt8) = some COLON; decide)

example : Accepts (b! "a: b") (.map (.cons (b! "a") (.scalar (.string (b! "b"))) .nil)) := by
  have hv : Sits (b! "a: b") contentView (.under 0) (.scalar (.string (b! "b"))) 3 4 :=
    .scalar rfl (by decide) (by decide) (.plain (fun k h => by
      match k, h with
      | 0, h => exact absurd h (by decide)
      | k + 1, h => rw [List.take_of_length_le (by simp [slice])] at h; exact absurd h (by decide)) (by decide))
  have hr : Rows (b! "a: b") contentView 0 true [(some (b! "a"), .scalar (.string (b! "b")))] 0 4 :=
    .last (a := 2) (b := 3) (q := 4) rfl ⟨1, by decide, firstKey_a (rest := b! " b") rfl⟩ ⟨⟨by decide, by decide, by decide⟩, by decide, by decide⟩ hv
      ⟨⟨by decide, by decide, by decide⟩, by decide, by decide⟩ (by rintro ⟨h, _⟩; exact absurd h (by decide))
  exact ⟨0, 4, by decide, by decide, .keys (l := [(b! "a", Content.scalar (.string (b! "b")))]) ⟨_, rfl, rfl⟩ ⟨by decide, (fun _ h => by cases h)⟩ hr,
    ⟨by decide, by decide, by decide⟩, by decide, by decide⟩

example : Refuses (b! "a: b\nc") 5 6 .badMappingSeparator := C57_refuses.1 (by decide +kernel)

example : Hangs (b! "a: 'b''") := ⟨0, by decide, by decide, .keys ⟨by decide, (fun _ h => by cases h)⟩ <|
  .inside (key := some (b! "a")) (a := 2) (b := 3) rfl ⟨1, by decide, firstKey_a (rest := b! " 'b''") rfl⟩ ⟨⟨by decide, by decide, by decide⟩, by decide, by decide⟩ <|
  .quote (unclosed_iff.2 ⟨by decide, by decide⟩)⟩

/-- A quote that is not closed does no harm where a value does not start, nor after a fault. -/
example : Terminates (b! "a: it's") ∧ Terminates (b! "[a b] 'c") := ⟨⟨20, by decide +kernel⟩, ⟨20, by decide +kernel⟩⟩

end Verif
