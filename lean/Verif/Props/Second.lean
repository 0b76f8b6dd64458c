import Verif.Second
/-!
A text with a second document in it (C84), in addition to `Verif/Props/KeyLines.lean`.
-/
namespace Verif

/-- C84, what holds: after a scalar that is no block scalar, or an inline collection, another document is refused, with an error that points at `---`.  The first one may have a
header, and white space and comments around it. -/
theorem C84_other_partial {x y : Bytes} {c : Content} {b : UInt8} (hx : x.getLast? = some NL) (h : ∃ doc, fromSlice x = .ok doc ∧ Reads doc.data doc.root c)
    (hb : (skipBlank false (body x)).head? = some b)
    (hk : (b = LBR ∨ b = LCB) ∨ (∃ a, c = .scalar a) ∧ (b = DQ → ∀ w, c = .scalar (.string w) → w.getLast? ≠ some NL) ∧ b ≠ PIPE ∧ b ≠ GT) :
    fromSlice (x ++ b! "---\n" ++ y) = .error (.err x.length (x.length + 4 + y.length) .expectedEof) := by
  obtain ⟨lo, hi, h1, h2, h3, h4⟩ := C57_accepts.1 h
  have hne : skipBlank false (body x) ≠ [] := by intro he; rw [he] at hb; cases hb
  have hlo : lo < x.length := by
    rcases Nat.lt_or_ge lo x.length with h | h
    · exact h
    · rw [List.drop_eq_nil_of_le h] at h2
      exact absurd h2.symm hne
  have hd : x.getD lo 0 = b := by
    rw [List.getD_eq_getElem?_getD, ← List.head?_drop, h2, hb]; rfl
  have hs : hi < x.length ∧ Sits (x ++ (b! "---\n" ++ y)) contentView .block c lo hi := by
    refine h3.then hx hlo ?_ h4.le.1
    rw [hd]
    refine hk.imp id fun ⟨⟨a, ha⟩, h6, h7⟩ => ⟨⟨?_, ?_⟩, h6, h7⟩
    · rintro l ⟨es, he, -⟩; rw [ha] at he; cases he
    · rintro l ⟨es, he, -⟩; rw [ha] at he; cases he
  rw [List.append_assoc, C57_refuses]
  refine ⟨lo, by simp; omega, ?_, .inr ⟨c, hi, hs.2, fullGap_then hx hs.1 h4 ⟨?_, ?_⟩, by simp, by simp; omega, rfl⟩⟩
  · rw [List.drop_append_of_le_length h1, h2, body_then _ hx hne]
  · show isWs DASH = false; decide
  · show DASH ≠ HASH; decide

mutual
theorem Broken.notEof {inp : Bytes} {s : Spot} {lo a b : Nat} {k : ErrKind} : Broken inp s lo a b k → k ≠ .expectedEof
  | .escape _ _ h => by cases h <;> nofun
  | .dashes _ h => h.notEof
  | .keys _ h => h.notEof
  | .brackets _ _ h => h.notEof
  | .braces _ _ h => h.notEof
theorem BrokenRows.notEof {inp : Bytes} {c : Nat} {f m : Bool} {lo a b : Nat} {k : ErrKind} : BrokenRows inp c f m lo a b k → k ≠ .expectedEof
  | .inside _ _ _ h => h.notEof
  | .later _ _ _ _ _ h => h.notEof
  | .colon .. => nofun
theorem BrokenCells.notEof {inp : Bytes} {m l : Bool} {f n a b : Nat} {k : ErrKind} : BrokenCells inp m l f n a b k → k ≠ .expectedEof
  | .inside _ _ _ h => h.notEof
  | .later _ _ _ _ _ h => h.notEof
  | .colon .. => nofun
  | .none _ => by unfold terminator; split <;> nofun
  | .other .. => by unfold terminator; split <;> nofun
end

/-- C84, for any first document: if an item after it is refused where it starts, then so is another document.  (After a mapping or sequence it is not; after a block scalar it is.) -/
theorem C84_tested_partial {x y : Bytes} (hx : x.getLast? = some NL) (hne : skipBlank false (body x) ≠ [])
    (h : fromSlice (x ++ b! "- 0\n") = .error (.err x.length (x.length + 4) .expectedEof)) :
    fromSlice (x ++ b! "---\n" ++ y) = .error (.err x.length (x.length + 4 + y.length) .expectedEof) := by
  rw [C57_refuses] at h
  obtain ⟨lo, h1, h2, h3 | ⟨c, hi, h3, h4, -⟩⟩ := h
  · exact absurd rfl h3.notEof
  rw [body_then _ hx hne] at h2
  have hl := congrArg List.length h2
  have hlo : lo ≤ x.length := by
    simp at hl h1
    omega
  rw [List.drop_append_of_le_length hlo] at h2
  have h5 := List.append_cancel_right h2
  have H := joint_marker (y := y) hx
  rw [List.append_assoc, C57_refuses]
  refine ⟨lo, by simp; omega, ?_, .inr ⟨c, hi, h3.joint H h4 (Nat.le_refl _), H.full h4 (Nat.le_refl _), by simp, by simp; omega, rfl⟩⟩
  rw [List.drop_append_of_le_length hlo, h5, body_then _ hx hne]

/-! ### The hypotheses can be met -/

/-- A list in brackets, with a header and comments. -/
example : fromSlice (b! "%YAML 1.2\n--- # one\n[a, {b: \"c\"}] # end\n---\n'\n") = .error (.err 40 46 .expectedEof) :=
  C84_other_partial (x := b! "%YAML 1.2\n--- # one\n[a, {b: \"c\"}] # end\n") (y := b! "'\n")
    (c := .seq (.cons (.scalar (.string (b! "a"))) (.cons (.map (.cons (b! "b") (.scalar (.string (b! "c"))) .nil)) .nil)))
    (by decide) (C57_accepts.2 (says_iff.1 (by decide +kernel))) (b := LBR) (by decide +kernel) (.inl (.inl rfl))

/-- A string in double quotes with an escape, after an empty line and white space. -/
example : fromSlice (b! "\n  \"a\\tb\"\n---\n- c\n") = .error (.err 10 18 .expectedEof) :=
  C84_other_partial (x := b! "\n  \"a\\tb\"\n") (y := b! "- c\n") (c := .scalar (.string (b! "a\tb"))) (by decide) (C57_accepts.2 (says_iff.1 (by decide +kernel)))
    (b := DQ) (by decide +kernel) (.inr ⟨⟨_, rfl⟩, fun _ w hw => by cases hw; decide, by decide, by decide⟩)

/-- Double quotes that are not closed go on in the second document. -/
example : (fromSlice (b! "\"a\n")).isOk = true ∧ (fromSlice (b! "\"a\n---\nb\n")).isOk = true := by decide +kernel

/-- A block scalar. -/
example : fromSlice (b! "# c\n|\n  a\n\n  b\n---\nc: d\n") = .error (.err 15 24 .expectedEof) :=
  C84_tested_partial (x := b! "# c\n|\n  a\n\n  b\n") (y := b! "c: d\n") (by decide) (by decide +kernel) (by decide +kernel)

/-- A block scalar in the first column: `---` is part of it, and an item after it is not refused. -/
example : (fromSlice (b! "|\na\n- 0\n")).isOk = true ∧ (fromSlice (b! "|\na\n---\n")).isOk = true := by decide +kernel

end Verif
