import Verif.EchoDocs
import Verif.Props.Exact
import Verif.Props.RoundTrip
/-
What is written for a text that was read and not changed, exactly (C58, C01).
-/
namespace Verif

/-- C58: if a text is read and the document is written without a change, the result is what `Echoes` says; and there is a result for no other text. -/
theorem C58_writes {inp out : Bytes} : (∃ doc, fromSlice inp = .ok doc ∧ doc.write = .ok out) ↔ Echoes inp out := by
  refine ⟨fun ⟨doc, h1, h2⟩ => ?_, echoed⟩
  obtain ⟨out', h3, h4⟩ := echoes_of h1
  rw [h2] at h3
  cases h3
  exact h4

/-- So a text is written in one way. -/
theorem C58_unique {inp out out' : Bytes} (h : Echoes inp out) (h' : Echoes inp out') : out = out' := by
  obtain ⟨doc, h1, h2⟩ := echoed h
  obtain ⟨doc', h3, h4⟩ := echoed h'
  rw [h1] at h3
  cases h3
  rw [h2] at h4
  cases h4
  rfl

/-- And every text with a content is written. -/
theorem C58_accepts {inp : Bytes} : (∃ out, Echoes inp out) ↔ ∃ c, Accepts inp c := by
  constructor
  · rintro ⟨out, h⟩
    obtain ⟨doc, h1, _⟩ := echoed h
    obtain ⟨c, h2, _⟩ := accepts_of h1
    exact ⟨c, h2⟩
  · rintro ⟨c, h⟩
    obtain ⟨doc, h1, _⟩ := accepted h
    obtain ⟨out, _, h3⟩ := echoes_of h1
    exact ⟨out, h3⟩

/-- C01, exactly: the texts that are written as they were read. -/
theorem C01_exact {x : Bytes} {doc : Document} (h : Parsed x doc) : doc.write = .ok x ↔ Echoes x x := by
  rw [parsed_iff] at h
  refine ⟨fun h1 => C58_writes.1 ⟨doc, h, h1⟩, fun h1 => ?_⟩
  obtain ⟨doc', h2, h3⟩ := echoed h1
  rw [h] at h2
  cases h2
  exact h3

/-! Examples, derived from the specification. -/

private theorem one_writes {inp : Bytes} {lo : Nat} (h : FullGap inp lo lo) (h1 : lo + 1 ≤ inp.length) (h2 : slice inp lo (lo + 1) = b! "1")
    (h3 : isNumber ([49] ++ [(inp.drop (lo + 1)).headD 0]) = false) : Writes inp .flow lo (slice inp lo (lo + 1)) (lo + 1) :=
  .scalar (v := .number (b! "1")) h (Nat.le_succ _) h1 (by rw [h2]; exact .number (by decide) h3)

/-- A comma is written, and white space is not. -/
example : Echoes (b! "--- [1 1 ]") (b! " [1, 1 ]") := by
  have v1 : Writes (b! "--- [1 1 ]") .flow 5 (b! "1") 6 := one_writes ⟨⟨by decide, by decide, by decide⟩, by decide, by decide⟩ (by decide) (by decide) (by decide)
  have v2 : Writes (b! "--- [1 1 ]") .flow 7 (b! "1") 8 := one_writes ⟨⟨by decide, by decide, by decide⟩, by decide, by decide⟩ (by decide) (by decide) (by decide)
  have g9 : FullGap (b! "--- [1 1 ]") 8 9 := ⟨⟨by decide, by decide, by decide⟩, by decide, by decide⟩
  have g7 : FullGap (b! "--- [1 1 ]") 6 7 := ⟨⟨by decide, by decide, by decide⟩, by decide, by decide⟩
  have g5 : FullGap (b! "--- [1 1 ]") 5 5 := ⟨⟨by decide, by decide, by decide⟩, by decide, by decide⟩
  have c2 : WritesCells (b! "--- [1 1 ]") false true (b! " ") 7 (b! " 1 ") 9 :=
    WritesCells.final (inp := b! "--- [1 1 ]") (k := none) (w := b! " ") (a := 7) (hi := 9) ⟨by decide, by decide⟩ rfl v2 g9 (by decide)
  have c1 : WritesCells (b! "--- [1 1 ]") false false [] 5 (b! "1, 1 ") 9 :=
    WritesCells.cell (inp := b! "--- [1 1 ]") (k := none) (w := []) (a := 5) (b := 5) (last := true) (start := 6) (n' := 7) (hi := 9) ⟨by decide, by decide⟩ rfl g5 v1
      ⟨6, rfl, .inr ⟨rfl, by decide, rfl, g7⟩⟩ c2
  exact ⟨3, 10, b! " [1, 1 ]", by decide, by decide,
    .brackets (lo := 4) (n := 5) ⟨⟨by decide, by decide, by decide⟩, by decide, by decide⟩ (by decide) ⟨⟨by decide, by decide, by decide⟩, by decide, by decide⟩ c1,
    ⟨⟨by decide, by decide, by decide⟩, by decide, by decide⟩, by decide⟩

/-- This one is written as it is. -/
example : Echoes (b! "a: [1, {b: 2}]\nc:\n  - d # e\n  - \"f\"\n") (b! "a: [1, {b: 2}]\nc:\n  - d # e\n  - \"f\"\n") := by
  obtain ⟨doc, h⟩ := parsed_of_accepts (x := b! "a: [1, {b: 2}]\nc:\n  - d # e\n  - \"f\"\n") (by decide)
  refine (C01_exact h).1 ?_
  have h2 : rewritten (b! "a: [1, {b: 2}]\nc:\n  - d # e\n  - \"f\"\n") = .ok (b! "a: [1, {b: 2}]\nc:\n  - d # e\n  - \"f\"\n") := by decide +kernel
  rw [parsed_iff] at h
  unfold rewritten at h2
  rw [h] at h2
  exact h2

/-- And these are not. -/
example : Echoes (b! "{a: 1 , b: 2}") (b! "{a: 1, b: 2}") ∧ Echoes (b! "|\n") (b! "|\n\n") := by
  have key : ∀ x out, rewritten x = .ok out → Echoes x out := by
    intro x out h
    unfold rewritten at h
    cases hr : fromSlice x with
    | error e => rw [hr] at h; cases h
    | ok doc => rw [hr] at h; exact C58_writes.1 ⟨doc, hr, h⟩
  exact ⟨key _ _ (by decide), key _ _ (by decide)⟩

end Verif
