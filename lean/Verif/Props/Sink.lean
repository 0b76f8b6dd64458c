import Verif.SinkLemmas
import Verif.Message
import Verif.SerdeLemmas
import Verif.Props.Shape
/-
Writing into a writer that may fail (C59), and the messages of errors (C60).
-/
namespace Verif

/-- C59: whatever the writer does, and whatever edits were made before, `write_to` does not panic.  The writer gets the bytes it gets if it does not fail, in order, up to
the failure.  `Ok` is returned just if there was none, and nothing is written after one. -/
theorem C59_failing_writer {doc : Document} (h : Reachable doc) (s : Sink) : ∃ out took ok, doc.write = .ok out ∧ doc.writeTo s = .ok (took, ok) ∧
    (ok = true → took = out) ∧
    (ok = false → ∃ done next k, s.take done next = some k ∧ took = done ++ next.take k ∧ done ++ next <+: out) ∧
    ((∀ done next, s.take done next = none) → ok = true) := by
  obtain ⟨t, ht⟩ := h.holds
  obtain ⟨out, hw⟩ := ht.wellFormed.writes
  rcases writeTo_sends (s := s) hw with h | ⟨done, next, k, h1, h2, h3⟩
  · exact ⟨out, out, true, hw, h, fun _ => rfl, (fun h => by cases h), fun _ => rfl⟩
  · exact ⟨out, _, false, hw, h2, (fun h => by cases h), fun _ => ⟨done, next, k, h1, rfl, h3⟩, fun h => by rw [h] at h1; cases h1⟩

/-- So what the writer took is the start of the text. -/
theorem C59_prefix {doc : Document} (h : Reachable doc) (s : Sink) {out took : Bytes} {ok : Bool} (hw : doc.write = .ok out) (hs : doc.writeTo s = .ok (took, ok)) :
    took <+: out := by
  obtain ⟨out', took', ok', h1, h2, h3, h4, _⟩ := C59_failing_writer h s
  rw [h1] at hw
  cases hw
  rw [h2] at hs
  cases hs
  cases ok with
  | true => rw [h3 rfl]; exact List.prefix_refl _
  | false =>
    obtain ⟨done, next, k, _, rfl, h5⟩ := h4 rfl
    refine List.IsPrefix.trans ⟨next.drop k, ?_⟩ h5
    rw [List.append_assoc, List.take_append_drop]

/-- A writer with room for `n` bytes. -/
def room (n : Nat) : Sink := ⟨fun done next => if done.length + next.length ≤ n then none else some (n - done.length)⟩

example : Reachable sample := .parsed sample_parsed
example : (docOfText (b! "a: [1, 'b c']\n")).write = .ok (b! "a: [1, 'b c']\n") ∧ (docOfText (b! "a: [1, 'b c']\n")).writeTo (room 9) = .ok (b! "a: [1, 'b", false) ∧
    (docOfText (b! "a: [1, 'b c']\n")).writeTo (room 14) = .ok (b! "a: [1, 'b c']\n", true) := by decide +kernel

theorem natText_digits (n : Nat) : (natText n).all isDigit = true := by
  obtain ⟨_, h⟩ := natOf_some (natOf_natText n)
  exact digitsVal_some h

theorem natText_inj {a b : Nat} (h : natText a = natText b) : a = b := by
  have := natOf_natText a
  rw [h, natOf_natText] at this
  cases this
  rfl

/-- What comes before the first byte of a kind is determined. -/
theorem split_first {p : UInt8 → Bool} : ∀ {a a' : Bytes} {c c' : UInt8} {r r' : Bytes}, a.all p = true → a'.all p = true → p c = false → p c' = false →
    a ++ c :: r = a' ++ c' :: r' → a = a' ∧ r = r'
  | [], [], c, c', r, r', _, _, _, _, h => ⟨rfl, (List.cons.inj h).2⟩
  | x :: a, [], c, c', r, r', h1, _, _, h4, h => by
    obtain ⟨rfl, _⟩ := List.cons.inj h
    rw [List.all_cons, h4] at h1
    cases h1
  | [], x :: a, c, c', r, r', _, h2, h3, _, h => by
    obtain ⟨rfl, _⟩ := List.cons.inj h
    rw [List.all_cons, h3] at h2
    cases h2
  | x :: a, y :: a', c, c', r, r', h1, h2, h3, h4, h => by
    obtain ⟨rfl, h5⟩ := List.cons.inj h
    rw [List.all_cons, Bool.and_eq_true] at h1 h2
    obtain ⟨rfl, h6⟩ := split_first h1.2 h2.2 h3 h4 h5
    exact ⟨rfl, h6⟩

/-- C60: the message of an error tells its kind and its span: different errors have different messages. -/
theorem C60_message {a b a' b' : Nat} {k k' : ErrKind} (h : errorMessage a b k = errorMessage a' b' k') : a = a' ∧ b = b' ∧ k = k' := by
  have e : ∀ a b k, errorMessage a b k = k.message ++ b! " " ++ 40 :: (b! "at " ++ natText a ++ DASH :: (natText b ++ [41])) := by
    intro a b k
    simp [errorMessage, DASH]
  rw [e, e] at h
  have hk : ∀ k : ErrKind, (k.message ++ b! " ").all (fun c => c != 40) = true := by intro k; cases k <;> decide
  obtain ⟨h1, h2⟩ := split_first (hk k) (hk k') (by decide) (by decide) h
  have hm : k = k' := by
    revert h1
    cases k <;> cases k' <;> decide
  rw [List.append_assoc, List.append_assoc] at h2
  have h2 := List.append_cancel_left h2
  obtain ⟨h3, h4⟩ := split_first (natText_digits a) (natText_digits a') (by decide) (by decide) h2
  exact ⟨natText_inj h3, natText_inj (List.append_cancel_right h4), hm⟩

example : fromSlice (b! "[Aristotle, # this is a comment") = .error (.err 11 31 .badSequenceTerminator) ∧
    errorMessage 11 31 .badSequenceTerminator = b! "bad sequence terminator (at 11-31)" := by decide +kernel

end Verif
