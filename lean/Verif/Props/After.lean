import Verif.After
import Verif.Props.Exact
import Verif.Props.Again
/-
White space and comments after a text (C67).
-/
namespace Verif

mutual
/-- The last scalar of a content; there is none if the content, or the last thing in it, is an empty collection. -/
def Content.last : Content → Option AnyV
  | .scalar a => some a
  | .map es => es.last
  | .seq es => es.last
def Entries.last : Entries → Option AnyV
  | .nil => none
  | .cons _ v .nil => v.last
  | .cons _ _ (.cons k v rest) => (Entries.cons k v rest).last
def Elems.last : Elems → Option AnyV
  | .nil => none
  | .cons v .nil => v.last
  | .cons _ (.cons v rest) => (Elems.cons v rest).last
end

theorem Entries.last_list : ∀ (es : Entries) (e : Bytes × Content), es.list.getLast? = some e → es.last = e.2.last
  | .nil, _, h => by cases h
  | .cons k v .nil, e, h => by simp [Entries.list] at h; subst h; rw [Entries.last]
  | .cons k v (.cons k' v' rest), e, h => by
    rw [Entries.last]
    exact Entries.last_list (.cons k' v' rest) e (by simpa [Entries.list] using h)
theorem Elems.last_list : ∀ (es : Elems) (c : Content), es.list.getLast? = some c → es.last = c.last
  | .nil, _, h => by cases h
  | .cons v .nil, e, h => by simp [Elems.list] at h; subst h; rw [Elems.last]
  | .cons v (.cons v' rest), e, h => by
    rw [Elems.last]
    exact Elems.last_list (.cons v' rest) e (by simpa [Elems.list] using h)

theorem content_firm : contentView.Firm fun c => ∀ s, c.last = some (.string s) → s.getLast? ≠ some NL where
  string := by rintro v s rfl h; exact h s (by rw [Content.last])
  seq := by
    rintro v l ⟨es, rfl, rfl⟩ h w hw s hs
    exact h s (by rw [Content.last, es.last_list w hw]; exact hs)
  map := by
    rintro v l ⟨es, rfl, rfl⟩ h w hw s hs
    exact h s (by rw [Content.last, es.last_list w hw]; exact hs)

/-- C67: a text that ends with a line break, and whose last scalar is not a string that ends with one, is accepted with the same content if white space and comments
that end with a line break are put after it. -/
theorem C67_after {x t : Bytes} {c : Content} (hx : x.getLast? = some NL) (hb : blank t = true) (ht : t = [] ∨ t.getLast? = some NL)
    (hc : ∀ s, c.last = some (.string s) → s.getLast? ≠ some NL) (h : Accepts x c) : Accepts (x ++ t) c := by
  have H : Tail x t := ⟨hx, hb, ht⟩
  obtain ⟨lo, hi, h1, h2, h3, h4⟩ := h
  obtain ⟨h5, h6⟩ := H.body
  refine ⟨mv x t lo, mv x t hi, ?_, ?_, h3.after H content_firm (by intro h; cases h) (fun _ => hc), ?_⟩
  · unfold mv
    rw [List.length_append]
    split <;> omega
  · rw [h6, skipBlank_after hb h5, ← h2]
    by_cases hlo : lo = x.length
    · subst hlo
      rw [mv_end, List.drop_length, List.drop_length, if_pos rfl]
    · rw [mv_lt (by omega), if_neg (by rw [List.drop_eq_nil_iff]; omega), List.drop_append_of_le_length h1]
  · rw [← mv_end]
    exact H.fullMv h4

/-- The same about `from_slice`. -/
theorem C67_parse {x t : Bytes} {doc : Document} {c : Content} (hx : x.getLast? = some NL) (hb : blank t = true) (ht : t = [] ∨ t.getLast? = some NL)
    (hc : ∀ s, c.last = some (.string s) → s.getLast? ≠ some NL) (h : fromSlice x = .ok doc) (hr : Reads doc.data doc.root c) :
    ∃ doc', fromSlice (x ++ t) = .ok doc' ∧ Reads doc'.data doc'.root c :=
  C57_accepts.2 (C67_after hx hb ht hc (C57_accepts.1 ⟨doc, h, hr⟩))

/-- A text with keys, an item of a sequence and a block scalar, and what it says. -/
def someText : Bytes := b! "a: [1, 'x']\n# c\nb:\n- >-\n   two\n   words\n- z\n"

example : blank (b! "\n  # é\n\n") = true ∧ (b! "\n  # é\n\n").getLast? = some NL ∧ someText.getLast? = some NL ∧
    (says someText).bind Content.last = some (.string (b! "z")) ∧ says (someText ++ b! "\n  # é\n\n") = says someText := by decide +kernel
-- A block scalar at the end, stripped: the hypotheses hold for it, too.
example : (says (b! "a: |-\n b\n")).bind Content.last = some (.string (b! "b")) ∧ says (b! "a: |-\n b\n" ++ b! "#x\n\n") = says (b! "a: |-\n b\n") := by
  decide +kernel
-- Each hypothesis is needed: the string at the end must not end with a line break, in a block scalar or in quotes that are not closed;
-- the text must end with one, and so must what is put after it.
example : says (b! "a: |\n b\n" ++ b! "\n") ≠ says (b! "a: |\n b\n") := by decide +kernel
example : says (b! "\"a\n" ++ b! "# b\n") ≠ says (b! "\"a\n") := by decide +kernel
example : says (b! "a" ++ b! " # b\n") ≠ says (b! "a") := by decide +kernel
example : says (b! "a: >-\n  b\n" ++ b! "   ") ≠ says (b! "a: >-\n  b\n") := by decide +kernel
-- The other way round nothing can be said: what is put after a text can close what is open.
example : says (b! "[a\n") = none ∧ says (b! "'a\n") = none ∧ blank (b! "#'\n") = true ∧ (says (b! "'a\n" ++ b! "#'\n")).isSome = true := by decide +kernel

end Verif
