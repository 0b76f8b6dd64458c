import Verif.SwapText
import Verif.Props.Exact
import Verif.Props.Again
/-
White space and comments between the parts of a text (C68).
-/
namespace Verif

/-- C68: white space and comments between the scalars and keys of a text can be exchanged for others, if they are whole lines or at the end of a line.  The content is the
same, and what was put there can be exchanged again. -/
theorem C68_swap {line : Bool} {p t t' q : Bytes} {c : Content} (h : Swap line p t t' q) (hh : hasHeader (p ++ (t ++ q)) = false)
    (hc : ClearText (p ++ (t ++ q)) p.length (p.length + t.length) c) :
    Accepts (p ++ (t' ++ q)) c ∧ hasHeader (p ++ (t' ++ q)) = false ∧ ClearText (p ++ (t' ++ q)) p.length (p.length + t'.length) c :=
  ⟨(h.text hc hh).accepts, h.noHeader hh, h.text hc hh⟩

/-- C68 as an equivalence: it does not matter which of the two is there. -/
theorem C68_iff {line : Bool} {p t t' q : Bytes} {c : Content} (h : Swap line p t t' q) :
    hasHeader (p ++ (t ++ q)) = false ∧ ClearText (p ++ (t ++ q)) p.length (p.length + t.length) c ↔
      hasHeader (p ++ (t' ++ q)) = false ∧ ClearText (p ++ (t' ++ q)) p.length (p.length + t'.length) c :=
  ⟨fun ⟨h1, h2⟩ => ⟨h.noHeader h1, h.text h2 h1⟩, fun ⟨h1, h2⟩ => ⟨h.symm.noHeader h1, h.symm.text h2 h1⟩⟩

/-- C68 for lines and `from_slice`: both texts are accepted, and there is the same in them. -/
theorem C68_lines {p t t' q : Bytes} {c : Content} (hp : p = [] ∨ p.getLast? = some NL) (ht : t = [] ∨ t.getLast? = some NL) (ht' : t' = [] ∨ t'.getLast? = some NL)
    (hb : blank t = true) (hb' : blank t' = true) (hh : hasHeader (p ++ (t ++ q)) = false) (hc : ClearText (p ++ (t ++ q)) p.length (p.length + t.length) c) :
    (∃ doc, fromSlice (p ++ (t ++ q)) = .ok doc ∧ Reads doc.data doc.root c) ∧ ∃ doc, fromSlice (p ++ (t' ++ q)) = .ok doc ∧ Reads doc.data doc.root c :=
  ⟨C57_accepts.2 hc.accepts, C57_accepts.2 (C68_swap (line := true) ⟨hb, hb', fun _ => ⟨hp, ht, ht'⟩, fun h => absurd h (by decide)⟩ hh hc).1⟩

/-- C68 for the ends of lines and `from_slice`. -/
theorem C68_ends {p t t' q : Bytes} {c : Content} (hq : q.head? = some NL) (hn : NL ∉ t) (hn' : NL ∉ t') (ht : t = [] ∨ isWs (t.headD 0) = true)
    (ht' : t' = [] ∨ isWs (t'.headD 0) = true) (hb : blank t = true) (hb' : blank t' = true) (hh : hasHeader (p ++ (t ++ q)) = false)
    (hc : ClearText (p ++ (t ++ q)) p.length (p.length + t.length) c) :
    (∃ doc, fromSlice (p ++ (t ++ q)) = .ok doc ∧ Reads doc.data doc.root c) ∧ ∃ doc, fromSlice (p ++ (t' ++ q)) = .ok doc ∧ Reads doc.data doc.root c :=
  ⟨C57_accepts.2 hc.accepts, C57_accepts.2 (C68_swap (line := false) ⟨hb, hb', fun h => absurd h (by decide), fun _ => ⟨hq, hn, hn', ht, ht'⟩⟩ hh hc).1⟩

/-! ### Cases -/

theorem fullGap_of {x : Bytes} {a b : Nat} (h : a ≤ x.length ∧ wsEnd x a = b) : FullGap x a b := h.2 ▸ FullGap.ws h.1

/-- A text with a comment at the end of a line, between position 6 and 10. -/
def endText : Bytes := b! "a: 'b' # c\nd: [1, x]\n"
/-- What it says. -/
def endSays : Content := .map (.cons (b! "a") (.scalar (.string (b! "b"))) (.cons (b! "d") (.seq (.cons (.scalar (.number (b! "1"))) (.cons (.scalar (.string (b! "x"))) .nil))) .nil))

theorem endText_token {fl : Bool} {rest s s' : Bytes} {a : AnyV} (h : Token fl rest s' a) (e : s = s') : Token fl rest s a := e ▸ h

/-- The comment is between the scalars and the keys. -/
theorem endText_clear : ClearText endText 6 10 endSays := by
  have hb : Clear endText 6 10 contentView (.item 0 (some (b! "a"))) (.scalar (.string (b! "b"))) 3 6 :=
    .scalar (a := .string (b! "b")) rfl (by decide) (by decide)
      (endText_token (.quoted (.single (b! "b")) (by decide) (by decide)) (by decide)) (.inr ⟨by decide, .inl (by decide)⟩)
  have h1 : Clear endText 6 10 contentView .flow (.scalar (.number (b! "1"))) 15 16 :=
    .scalar (a := .number (b! "1")) rfl (by decide) (by decide) (endText_token (.number (s := b! "1") (by decide) (by decide)) (by decide)) (.inl (by decide))
  have hx : Clear endText 6 10 contentView .flow (.scalar (.string (b! "x"))) 18 19 :=
    .scalar (a := .string (b! "x")) rfl (by decide) (by decide)
      (endText_token (.plain (s := b! "x") (fun k h => by
        rcases k with _ | k
        · exact absurd h (by decide)
        · rw [List.take_of_length_le (by simp)] at h
          exact absurd h (by decide)) (by decide)) (by decide)) (.inl (by decide))
  have hd : Clear endText 6 10 contentView (.item 0 (some (b! "d"))) (.seq (.cons (.scalar (.number (b! "1"))) (.cons (.scalar (.string (b! "x"))) .nil))) 14 20 :=
    .brackets ⟨_, rfl, rfl⟩ (by decide) (fullGap_of (b := 15) (by decide))
      (.cell (k := none) ⟨by decide, by decide⟩ ⟨rfl, (fun h => nomatch h)⟩ (fullGap_of (by decide)) h1
        (show NextCell endText false (atBlock endText 15) 16 false 17 18 from ⟨16, rfl, .inl ⟨rfl, by decide, rfl, fullGap_of (by decide)⟩⟩)
        (.cell (k := none) ⟨by decide, by decide⟩ ⟨rfl, (fun h => nomatch h)⟩ (fullGap_of (by decide)) hx
          (show NextCell endText false (atBlock endText 18) 19 true 19 19 from ⟨19, rfl, .inr ⟨rfl, by decide, rfl, fullGap_of (by decide)⟩⟩)
          (.none (by decide))))
  refine ⟨0, 20, by decide, by decide +kernel, .keys ⟨_, rfl, rfl⟩ ⟨(fun h => nomatch h), (fun c h => nomatch h)⟩ ?_, fullGap_of (by decide)⟩
  refine .more (a := 2) (b := 3) (e := 6) (lo' := 11) (by decide) ⟨⟨1, rfl, ?_⟩, fun _ => .inr (by decide)⟩ (fullGap_of (by decide)) hb (fullGap_of (by decide)) ?_
  · refine ⟨by decide, by decide, .inr ⟨by decide, by decide, by decide, by decide, ⟨by decide, by decide⟩, fun p h0 h1 h2 => ?_⟩⟩
    obtain rfl : p = 0 := by omega
    exact absurd h2.1 (by decide)
  · exact .last (a := 13) (b := 14) (hi := 20) (q := 21) (by decide) ⟨⟨12, rfl, by decide, by decide, by decide, by decide, by decide⟩, fun _ => .inl (by decide)⟩
      (fullGap_of (by decide)) hd (fullGap_of (by decide)) (fun h => absurd h.2.2 (by decide))

-- The comment at the end of the line is exchanged for nothing and for another one.
example : Accepts (b! "a: 'b'" ++ ([] ++ b! "\nd: [1, x]\n")) endSays := (C68_swap (line := false) (p := b! "a: 'b'") (t := b! " # c") (t' := []) (q := b! "\nd: [1, x]\n")
  ⟨by decide, by decide, (fun h => nomatch h), fun _ => by decide⟩ (by decide) endText_clear).1
example : Accepts (b! "a: 'b'" ++ (b! "\t # é: '" ++ b! "\nd: [1, x]\n")) endSays := (C68_swap (line := false) (p := b! "a: 'b'") (t := b! " # c") (t' := b! "\t # é: '")
  (q := b! "\nd: [1, x]\n") ⟨by decide, by decide, (fun h => nomatch h), fun _ => by decide⟩ (by decide) endText_clear).1

-- Lines in a block sequence, in an inline collection, between a key and its value, before a line that goes on in the same column.
example : says (b! "- 'a'\n- b\n") = says (b! "- 'a'\n  # c\n\n- b\n") ∧ says (b! "[a,\nb]") = says (b! "[a,\n# c\nb]") ∧
    says (b! "a:\n  b: 1\n") = says (b! "a: # c\n\n #d\n  b: 1\n") ∧ (says (b! "a:\n  b: 1\n")).isSome = true := by decide +kernel
-- What the conditions are for.  After text that is not in quotes, a comment on the same line is a part of it; so is a comment in a string, and so is a line of a block
-- scalar.  A block scalar that keeps the line breaks after it counts them.
example : says (b! "a: b # c\n") ≠ says (b! "a: b\n") ∧ says (b! "'a\n# c\n'") ≠ says (b! "'a\n'") ∧ says (b! "a: |\n  b\n\n  c\n") ≠ says (b! "a: |\n  b\n  c\n") ∧
    says (b! "a: |\n  b\n\nc: 1\n") ≠ says (b! "a: |\n  b\nc: 1\n") := by decide +kernel
-- Without white space before it, what looks like a comment can be something else.
example : says (b! "'a': 'b'# c\n") = says (b! "'a': 'b'\n") ∧ says (b! "a:# c\n  b\n") ≠ says (b! "a: # c\n  b\n") := by decide +kernel

end Verif
