import Verif.Check
import Verif.Props.Display
/-
The check that `Display` makes of itself (C76).
-/
namespace Verif

/-- C76: for a text that is UTF-8 the check never fails, and the result is as without it. -/
theorem C76_parsed {x : Bytes} {doc : Document} (hv : validUtf8 x = true) (h : Parsed x doc) :
    ∃ out, doc.displayChecked = .ok out ∧ doc.display = .ok out ∧ doc.write = .ok out := by
  obtain ⟨out, h1, h2⟩ := C02_display x doc hv h
  exact ⟨out, by simp [Document.displayChecked, h1, h2, bind, Except.bind, pure, Except.pure], h2, h1⟩

/-- C76 is false of edited documents: after `set_null` on the value of `a: 1` the check fails. -/
theorem C76_check_false : ¬ ∀ doc, ReachableUtf8 doc → ∃ out, doc.displayChecked = .ok out := by
  intro h
  have h1 : Parsed (b! "a: 1") (docOfText (b! "a: 1")) := ⟨20, by decide⟩
  have h2 : (docOfText (b! "a: 1")).edit 2 (.setNull .empty) = .ok ((docOfText (b! "a: 1")).after 2 (.setNull .empty)) := by decide
  have h3 : Live (docOfText (b! "a: 1")) 2 := .viaMap [(b! "a", 2)] (b! "a") .self (by decide) (by decide) (by decide)
  obtain ⟨out, h⟩ := h _ (.edited (.parsed (by decide) h1) h3 rfl h2)
  have : ((docOfText (b! "a: 1")).after 2 (.setNull .empty)).displayChecked = .error .panic := by decide
  rw [this] at h
  cases h

/-- C76, when the check fails after edits: exactly if white space is before a null, mapping or sequence, other than the root, that is written as nothing. -/
theorem C76_check_partial {doc : Document} (h : ReachableUtf8 doc) :
    (doc.displayChecked = .error .panic ↔ ∃ x, Live doc x ∧ x ≠ doc.root ∧ WrittenAsNothing doc x ∧ doc.data.pre x ≠ .ok []) ∧
    (doc.displayChecked ≠ .error .panic → ∃ out, doc.displayChecked = .ok out ∧ doc.display = .ok out ∧ doc.write = .ok out) := by
  obtain ⟨out, s, h1, h2, -⟩ := C03_sublist_partial doc h
  have he := C03_exact doc h
  rw [h1, h2, Except.ok.injEq] at he
  have hc : doc.displayChecked = if s = out then .ok s else .error .panic := by
    simp only [Document.displayChecked, h1, h2, bind, Except.bind, pure, Except.pure]
  rw [hc]
  by_cases hs : s = out
  · rw [if_pos hs]
    refine ⟨⟨fun h => (by cases h), ?_⟩, fun _ => ⟨s, rfl, h2, by rw [h1, hs]⟩⟩
    rintro ⟨x, g1, g2, g3, g4⟩
    exact absurd (he.1 hs x g1 g2 g3) g4
  · rw [if_neg hs]
    refine ⟨⟨fun _ => Classical.byContradiction fun hn => hs (he.2 fun x g1 g2 g3 => Classical.byContradiction fun g4 => hn ⟨x, g1, g2, g3, g4⟩), fun _ => rfl⟩, fun h => absurd rfl h⟩

/-- A text that is not UTF-8 is accepted, written as it is, and fails the check. -/
theorem C76_bytes : ∃ x doc, Parsed x doc ∧ doc.write = .ok x ∧ doc.displayChecked = .error .panic :=
  ⟨[0xFF], docOfText [0xFF], ⟨20, by decide⟩, by decide, by decide⟩

example : ∃ out, sampleQuoted.displayChecked = .ok out ∧ sampleQuoted.display = .ok out ∧ sampleQuoted.write = .ok out :=
  (C76_check_partial sampleQuoted_reachable).2 (by decide)

example : ∃ x, Live ((docOfText (b! "a: 1")).after 2 (.setNull .empty)) x ∧ x ≠ ((docOfText (b! "a: 1")).after 2 (.setNull .empty)).root ∧
    WrittenAsNothing ((docOfText (b! "a: 1")).after 2 (.setNull .empty)) x ∧ ((docOfText (b! "a: 1")).after 2 (.setNull .empty)).data.pre x ≠ .ok [] :=
  ⟨2, .viaMap [(b! "a", 2)] (b! "a") .self (by decide) (by decide) (by decide), by decide, ⟨by decide, .inl (by rfl)⟩, by decide⟩

end Verif
